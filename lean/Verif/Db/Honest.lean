import Verif.Db.Loose
import Verif.Db.Commit
import Verif.Db.Inv
import Verif.Db.Place

/-!
# Helper lemmas: what no history of transactions breaks

The Free DB gives out pages that are in use, so after a few transactions the trees of a database may share pages and a leaf may stand where a branch page was.
What remains, whatever the history: every page that is in use is well-formed and carries its own number; the children of branch pages are pages in use; a
leaf holds only pairs that were stored, and lists of pages in use under keys of eight bytes.
-/

namespace Verif.Db.Honest

open Verif.Page

/-- Two gigabytes of pages.  Below it no page number can be taken for the header of a list of free pages. -/
@[irreducible] def lim : Nat := 2 ^ 19

theorem lim_eq : lim = 524288 := by unfold lim; rfl

/-- The pairs that may occur in leaves when the pages in use are those in `S`: lists of pages under keys of eight bytes, and otherwise the pairs in `B`. -/
def May (B : Bytes → Bytes → Prop) (S : Nat → Prop) (k v : Bytes) : Prop :=
  if k.length = 8 then ∃ l : List Nat, (∀ n ∈ l, S n) ∧ v = l.flatMap (le 8) else B k v

/-- A page in use.  The fourth part is about the entry that a cursor reads in an empty branch page, the last one about the places of the entries of a leaf. -/
structure Fine (A : Bytes → Bytes → Prop) (S : Nat → Prop) (p : Page) : Prop where
  wf : WF p
  pairs : isLeaf p = true → ∀ it ∈ items p, A it.key it.val
  kids : isLeaf p = false → ∀ it ∈ items p, S it.child
  stale : isLeaf p = false → numKeys p = 0 → ∀ c, child p 0 = .ok c → S c
  lie : isLeaf p = true → ∀ m, m ∣ 4096 → (∀ k v, A k v → m ∣ 4 + k.length + v.length) → Lies m p

theorem May.mono {B : Bytes → Bytes → Prop} {S S' : Nat → Prop} (h : ∀ n, S n → S' n) {k v : Bytes} (m : May B S k v) : May B S' k v := by
  unfold May at *
  split at m
  · rename_i h8
    obtain ⟨l, h1, h2⟩ := m
    rw [if_pos h8]; exact ⟨l, fun n hn => h n (h1 n hn), h2⟩
  · rename_i h8
    rw [if_neg h8]; exact m

theorem Fine.mono {A A' : Bytes → Bytes → Prop} {S S' : Nat → Prop} (hA : ∀ k v, A k v → A' k v) (h : ∀ n, S n → S' n) {p : Page} (f : Fine A S p) : Fine A' S' p :=
  ⟨f.wf, fun hl it hi => hA _ _ (f.pairs hl it hi), fun hl it hi => h _ (f.kids hl it hi), fun hl hz c hc => h _ (f.stale hl hz c hc),
    fun hl m hm hd => f.lie hl m hm fun k v hkv => hd k v (hA k v hkv)⟩

/-- All pages in use are there. -/
def Full (S : Nat → Prop) (file : Nat → Page) (pages : Nat) : Prop := ∀ n, S n → n < pages ∧ file n ≠ zeroPage

/-- The first page of the file, a meta page, cannot be taken for a page with entries.  A cursor that meets an empty page on its way down goes on there. -/
structure Calm (file : Nat → Page) (pages : Nat) : Prop where
  keys : numKeys (file 0) = 0
  out : ∀ c, child (file 0) 0 = .ok c → pages ≤ c ∧ lim ≤ c

/-- Pages of the file in use.  After a commit that did not come to its end some may be empty or missing. -/
structure Base (B : Bytes → Bytes → Prop) (S : Nat → Prop) (file : Nat → Page) (pages : Nat) : Prop where
  page : ∀ n, S n → 2 ≤ n ∧ n < lim ∧ (n < pages → file n = zeroPage ∨ pgno (file n) = n ∧ Fine (May B S) S (file n))
  holes : Full S file pages ∨ Calm file pages

/-- Pages in use inside a transaction: those of the file and the dirty ones. -/
def Has (S : Nat → Prop) (t : Txn) (n : Nat) : Prop := S n ∨ (t.getDirty n).isSome = true

/-- What every operation of a write transaction keeps. -/
structure Fair (B : Bytes → Bytes → Prop) (S : Nat → Prop) (t : Txn) : Prop where
  rdonly : t.rdonly = false
  low : 1 ≤ t.newLast
  dirty : ∀ n p, t.getDirty n = some p → 2 ≤ n ∧ n < lim ∧ pgno p = n ∧ Fine (May B (Has S t)) (Has S t) p
  freed : ∀ n ∈ t.freed, Has S t n
  root : t.root = 0 ∨ Has S t t.root
  froot : t.freeRoot = 0 ∨ Has S t t.freeRoot
  uniq : (t.dirty.map Prod.fst).Nodup

variable {B : Bytes → Bytes → Prop} {S : Nat → Prop} {env : Env}

/-! ### What only grows -/

theorem closed_has (env : Env) (S : Nat → Prop) (n : Nat) : Closed env fun t => Has S t n := by
  have hset : ∀ (t : Txn) m p, Has S t n → Has S (t.setDirty m p) n := by
    intro t m p h
    rcases h with h | h
    · exact .inl h
    · refine .inr ?_
      by_cases e : n = m
      · rw [e, getDirty_set_self]; rfl
      · rw [getDirty_set_other _ _ e]; exact h
  refine ⟨hset, ?_, fun _ h => h, fun _ _ h => h⟩
  intro t m r h ht
  obtain ⟨p, -, -, h | h⟩ := getWritable_cases h
  · rw [h.1]; exact ht
  · rw [h]; exact hset t _ _ ht

theorem has_set (t : Txn) (n : Nat) (p : Page) {m : Nat} (h : Has S t m) : Has S (t.setDirty n p) m := (closed_has ⟨fun _ _ => 0, 0, 0, 0, false, []⟩ S m).set t n p h

theorem has_self (t : Txn) (n : Nat) (p : Page) : Has S (t.setDirty n p) n := .inr (by rw [getDirty_set_self]; rfl)

/-- What may be assumed of allocators. -/
structure Mono (env : Env) (al : Alloc) : Prop where
  last : ∀ c, AllocInv (fun t => c ≤ t.newLast) al
  has : ∀ S n, AllocInv (fun t => Has S t n) al

theorem mono_alloc (env : Env) (fuel : Nat) : Mono env (alloc env fuel) :=
  ⟨fun c => alloc_inv (closed_last env c) fuel, fun S n => alloc_inv (closed_has env S n) fuel⟩

/-! ### Elementary changes -/

theorem Fair.bound {t : Txn} (F : Fair B S t) (hb : Base B S env.file env.filePages) {n : Nat} (h : Has S t n) : 2 ≤ n ∧ n < lim := by
  rcases h with h | h
  · exact ⟨(hb.page n h).1, (hb.page n h).2.1⟩
  · obtain ⟨p, hp⟩ := Option.isSome_iff_exists.1 h
    exact ⟨(F.dirty n p hp).1, (F.dirty n p hp).2.1⟩

theorem Fair.get {t : Txn} (F : Fair B S t) (hb : Base B S env.file env.filePages) {n : Nat} (h : Has S t n) {p : Page} (hp : getPage env t n = .ok p) :
    p = zeroPage ∧ Calm env.file env.filePages ∨ pgno p = n ∧ Fine (May B (Has S t)) (Has S t) p := by
  unfold getPage at hp
  rw [F.rdonly] at hp
  simp only [Bool.false_eq_true, if_false] at hp
  cases hd : t.getDirty n with
  | some q =>
    rw [hd] at hp; cases hp
    exact .inr (F.dirty n p hd).2.2
  | none =>
    rw [hd] at hp
    rcases h with h | h
    · obtain ⟨-, -, h1⟩ := hb.page n h
      have e : n < env.filePages ∧ env.file n = p := by
        simp only [mapPage] at hp
        split at hp
        · rename_i hn
          exact ⟨hn.2, Res.ok.inj hp⟩
        · cases hp
      obtain ⟨e1, e⟩ := e
      have h1 := h1 e1
      rw [e] at h1
      rcases h1 with h1 | ⟨h1, h2⟩
      · rcases hb.holes with hf | hf
        · exact absurd (e.trans h1) (hf n h).2
        · exact .inl ⟨h1, hf⟩
      · exact .inr ⟨h1, h2.mono (fun _ _ m => m.mono fun _ => Or.inl) (fun _ => Or.inl)⟩
    · rw [hd] at h; cases h

/-- A page has a kind; an empty one has none. -/
def Kind (p : Page) : Prop := isLeaf p = true ∨ isBranch p = true

theorem zero_kind : ¬ Kind zeroPage := by unfold Kind; decide

theorem Fair.got {t : Txn} (F : Fair B S t) (hb : Base B S env.file env.filePages) {n : Nat} (h : Has S t n) {p : Page} (hp : getPage env t n = .ok p) (hk : Kind p) :
    pgno p = n ∧ Fine (May B (Has S t)) (Has S t) p := by
  rcases F.get hb h hp with ⟨h, -⟩ | h
  · rw [h] at hk; exact absurd hk zero_kind
  · exact h

theorem nodup_set {t : Txn} (h : (t.dirty.map Prod.fst).Nodup) (n : Nat) (p : Page) : ((t.setDirty n p).dirty.map Prod.fst).Nodup := by
  unfold Txn.setDirty
  simp only [List.map_cons, List.nodup_cons]
  refine ⟨?_, ?_⟩
  · intro hm
    obtain ⟨e, he, rfl⟩ := List.mem_map.1 hm
    have := (List.mem_filter.1 he).2
    simp at this
  · exact List.Sublist.nodup (List.Sublist.map _ List.filter_sublist) h

theorem Fair.set {t : Txn} (F : Fair B S t) {n : Nat} {p : Page} (h2 : 2 ≤ n) (hl : n < lim) (hn : pgno p = n)
    (hp : Fine (May B (Has S (t.setDirty n p))) (Has S (t.setDirty n p)) p) : Fair B S (t.setDirty n p) := by
  refine ⟨F.rdonly, F.low, fun m q hq => ?_, fun m hm => has_set _ _ _ (F.freed m hm), F.root.imp id (has_set _ _ _), F.froot.imp id (has_set _ _ _), nodup_set F.uniq n p⟩
  by_cases e : m = n
  · rw [e, getDirty_set_self] at hq
    cases hq
    rw [e]; exact ⟨h2, hl, hn, hp⟩
  · rw [getDirty_set_other _ _ e] at hq
    obtain ⟨a, b, c, d⟩ := F.dirty m q hq
    exact ⟨a, b, c, d.mono (fun k v m => m.mono fun n => has_set _ _ _) fun n => has_set _ _ _⟩

/-- As before, for a page that is fine for the pages in use before. -/
theorem Fair.set' {t : Txn} (F : Fair B S t) {n : Nat} {p : Page} (h2 : 2 ≤ n) (hl : n < lim) (hn : pgno p = n)
    (hp : Fine (May B (Has S t)) (Has S t) p) : Fair B S (t.setDirty n p) :=
  F.set h2 hl hn (hp.mono (fun k v m => m.mono fun n => has_set _ _ _) fun n => has_set _ _ _)

theorem Fair.grow {t : Txn} (F : Fair B S t) : Fair B S (extend t).2 :=
  ⟨F.rdonly, Nat.le_succ_of_le F.low, F.dirty, F.freed, F.root, F.froot, F.uniq⟩

theorem Fair.reroot {t : Txn} (F : Fair B S t) {n : Nat} (h : n = 0 ∨ Has S t n) : Fair B S { t with root := n } :=
  ⟨F.rdonly, F.low, F.dirty, F.freed, h, F.froot, F.uniq⟩

/-! ### Pages -/

/-- An entry that may go into a page. -/
structure Fits (A : Bytes → Bytes → Prop) (S : Nat → Prop) (p : Page) (it : Item) : Prop where
  kind : it.hasData = isLeaf p
  small : it.child < 2 ^ 64
  pair : isLeaf p = true → A it.key it.val
  kid : isLeaf p = false → S it.child

variable {A : Bytes → Bytes → Prop}

theorem leaf_sizes {p : Page} (f : Fine A S p) (hl : isLeaf p = true) {m : Nat} (hd : ∀ k v, A k v → m ∣ 4 + k.length + v.length) : ∀ it ∈ items p, m ∣ it.size := by
  intro it hi
  have := hd _ _ (f.pairs hl it hi)
  rw [← item_size_leaf hl hi] at this
  exact this

theorem insert_fine {p : Page} (f : Fine A S p) {i : Nat} (hi : i ≤ numKeys p) {it : Item} (hs : Fits A S p it) {r : St × Page} (e : insert p i it = .ok r) :
    Fine A S r.2 ∧ pgno r.2 = pgno p ∧ isLeaf r.2 = isLeaf p ∧ (r.1 = .ok → items r.2 = (items p).insertIdx i it) := by
  by_cases hsz : it.size < 65536
  · obtain ⟨h1, h2⟩ := insert_keeps_entries_partial f.wf hi hs.kind hsz hs.small
    by_cases hr : room p < it.size + 2
    · rw [h1 hr] at e; cases e; exact ⟨f, rfl, rfl, fun h => by cases h⟩
    · obtain ⟨q, e', wf, hit, hno, hfl, -⟩ := h2 (by omega)
      rw [e'] at e; cases e
      have hl := isLeaf_congr hfl
      refine ⟨⟨wf, fun h0 x hx => ?_, fun h0 x hx => ?_, fun _ hz => ?_, fun h0 m hm hd => ?_⟩, hno, hl, fun _ => hit⟩
      · rw [hit] at hx; rw [hl] at h0
        rcases (List.mem_insertIdx (by rw [items_length]; exact hi)).1 hx with rfl | hx
        · exact hs.pair h0
        · exact f.pairs h0 x hx
      · rw [hit] at hx; rw [hl] at h0
        rcases (List.mem_insertIdx (by rw [items_length]; exact hi)).1 hx with rfl | hx
        · exact hs.kid h0
        · exact f.kids h0 x hx
      · rw [← items_length, hit, List.length_insertIdx, items_length, if_pos hi] at hz; omega
      · rw [hl] at h0
        refine insert_lies f.wf (f.lie h0 m hm hd) hi hs.kind hsz hs.small ?_ e'
        have := hd _ _ (hs.pair h0)
        have hk := hs.kind
        rw [h0] at hk
        rw [leaf_size hk]; exact this
  · by_cases hr : room p < it.size % 65536 + 2
    · rw [insert_nospc f.wf hs.kind hr] at e; cases e; exact ⟨f, rfl, rfl, fun h => by cases h⟩
    · rw [oversized_insert_undefined f.wf hi hs.kind (by omega) (by omega)] at e; cases e

/-- A leaf refuses an entry without data. -/
theorem insert_refused {p : Page} (hl : isLeaf p = true) {i : Nat} {k : Bytes} {c : Nat} : insert p i (.branch k c) = .ok (.inval, p) := by
  unfold Page.insert
  rw [hl]; rfl

theorem delete_fine {p : Page} (f : Fine A S p) (hl : isLeaf p = true) {i : Nat} {r : St × Page} (e : delete p i = .ok r) :
    Fine A S r.2 ∧ pgno r.2 = pgno p ∧ isLeaf r.2 = true ∧ (r.1 = .ok → numKeys r.2 + 1 = numKeys p ∧ i < numKeys p) := by
  by_cases hi : i < numKeys p
  · obtain ⟨q, e', wf, hit, hno, hfl, -⟩ := delete_removes_exactly_one f.wf hi
    rw [e'] at e; cases e
    have hq : isLeaf q = true := (isLeaf_congr hfl).trans hl
    refine ⟨⟨wf, fun _ x hx => f.pairs hl x (by rw [hit] at hx; exact List.mem_of_mem_eraseIdx hx), fun h => ?_, fun h => ?_,
      fun _ m hm hd => delete_lies f.wf (f.lie hl m hm hd) (leaf_sizes f hl hd) hi e'⟩, hno, hq, fun _ => ⟨?_, hi⟩⟩
    · rw [hq] at h; cases h
    · rw [hq] at h; cases h
    · show numKeys q + 1 = _
      rw [← items_length, hit, List.length_eraseIdx, items_length, if_pos hi]; omega
  · rw [delete_invalid_position (by omega)] at e; cases e; exact ⟨f, rfl, hl, fun h => by cases h⟩

/-- What a cursor reads in an empty branch page. -/
theorem empty_child {no c : Nat} (hno : no < 2 ^ 64) (h : child (emptyPage false no) 0 = .ok c) : c = no := by
  have h0 : rdSlot (emptyPage false no) 0 = .ok 0 := rfl
  unfold child at h
  rw [h0, Res.ok_bind] at h
  have : u64 (emptyPage false no) 0 = no := (emptyPage_fields false no hno).2.2.2.2
  obtain ⟨_, -, h⟩ := Res.bind_eq_ok.1 h
  rw [this] at h
  exact (Res.ok.inj h).symm

theorem empty_fine {leaf : Bool} {no : Nat} (hno : no < 2 ^ 64) (hS : leaf = false → S no) : Fine A S (emptyPage leaf no) := by
  refine ⟨emptyPage_wf _ _ hno, fun _ x hx => ?_, fun _ x hx => ?_, fun hl _ c hc => ?_, fun _ m hm _ => empty_lies hm _ hno⟩
  · rw [emptyPage_items _ _ hno] at hx; cases hx
  · rw [emptyPage_items _ _ hno] at hx; cases hx
  · cases leaf with
    | true => rw [(kind_leaf (emptyPage_fields true no hno).1).1] at hl; cases hl
    | false => rw [empty_child hno hc]; exact hS rfl

theorem u64_put16_out {p : Page} {o v a : Nat} (h : a + 8 ≤ o ∨ o + 2 ≤ a) : u64 (put16 p o v) a = u64 p a :=
  u64_congr fun i hi => put16_out (by omega)

theorem shrink_child {p l : Page} (wf : WF p) (hn : 0 < numKeys p) (e : shrink p 0 = .ok l) : child l 0 = child p 0 := by
  have hin := (wf.inside 0 hn).1
  have hgap := wf.gap
  have hlow := wf.low
  simp only [hdrSize] at hlow
  have hl : l = put16 (put16 (put16 p 10 0) 12 18) 14 4096 := by
    unfold shrink at e
    simp only [minOffset, Res.ok_bind] at e
    exact (Res.ok.inj e).symm
  have hs : slot l 0 = slot p 0 := by
    rw [hl]; unfold slot
    simp only [hdrSize]
    rw [u16_put16_out (by omega), u16_put16_out (by omega), u16_put16_out (by omega)]
  have hu : u64 l (slot p 0) = u64 p (slot p 0) := by
    rw [hl, u64_put16_out (by omega), u64_put16_out (by omega), u64_put16_out (by omega)]
  unfold child rdSlot
  rw [hs]
  simp only [bind_assoc, Res.ok_bind, hu]

theorem split_fine {p : Page} (f : Fine A S p) {leaf : Bool} (hk : isLeaf p = leaf) {no : Nat} (hno : no < 2 ^ 64) {s : Split}
    (e : (if leaf then splitLeaf p no else splitBranch p no) = .ok (some s)) :
    Fine A S s.left ∧ Fine A S s.right ∧ isLeaf s.left = leaf ∧ isLeaf s.right = leaf ∧ pgno s.left = pgno p ∧ pgno s.right = no := by
  classical
  subst hk
  let A' : Bytes → Bytes → Prop := fun k v => ∃ it ∈ items p, it.key = k ∧ it.val = v
  let lv : Nat → Option Nat := fun n => if ∃ it ∈ items p, it.child = n then some 0 else none
  have hlv : ∀ {n k}, lv n = some k → ∃ it ∈ items p, it.child = n := by
    intro n k h
    by_cases hx : ∃ it ∈ items p, it.child = n
    · exact hx
    · exact absurd h (by simp only [lv, if_neg hx]; simp)
  let h := if isLeaf p then 0 else 1
  have hh : (h == 0) = isLeaf p := by cases hx : isLeaf p <;> simp [h, hx]
  have g : Good A' lv h p := ⟨f.wf, hh.symm, fun _ it hi => ⟨it, hi, rfl, rfl⟩, fun k hk it hi => by
    have hk0 : k = 0 := by
      cases hx : isLeaf p <;> simp [h, hx] at hk <;> omega
    rw [hk0]; exact if_pos ⟨it, hi, rfl⟩⟩
  rw [← hh] at e
  obtain ⟨g1, g2, n1, n2⟩ := split_good g hno e rfl
  have li : isLeaf p = true → ∀ m, m ∣ 4096 → (∀ k v, A k v → m ∣ 4 + k.length + v.length) → Lies m s.left ∧ Lies m s.right := by
    intro hl m hm hd
    rw [hh, hl, if_pos rfl] at e
    exact split_lies hm f.wf hl (f.lie hl m hm hd) (leaf_sizes f hl hd) hno e
  have k1 : isLeaf s.left = isLeaf p := g1.kind.trans hh
  have k2 : isLeaf s.right = isLeaf p := g2.kind.trans hh
  have pr : ∀ {q}, Good A' lv h q → isLeaf p = true → ∀ it ∈ items q, A it.key it.val := by
    intro q gq hl it hi
    obtain ⟨x, hx, e1, e2⟩ := gq.pairs (by simp [h, hl]) it hi
    rw [← e1, ← e2]; exact f.pairs hl x hx
  have kd : ∀ {q}, Good A' lv h q → isLeaf p = false → ∀ it ∈ items q, S it.child := by
    intro q gq hl it hi
    obtain ⟨x, hx, e1⟩ := hlv (gq.kids 0 (by simp [h, hl]) it hi)
    rw [← e1]; exact f.kids hl x hx
  have st : isLeaf p = false → (numKeys s.left = 0 → ∀ c, child s.left 0 = .ok c → S c) ∧ numKeys s.right ≠ 0 := by
    intro hl
    rw [hh, hl, if_neg (by simp)] at e
    unfold splitBranch at e
    rw [f.wf.not_leaf hl] at e
    simp only [Bool.not_true, Bool.false_eq_true, if_false] at e
    obtain ⟨r, e1, e⟩ := Res.bind_eq_ok.1 e
    obtain ⟨l, e2, e⟩ := Res.bind_eq_ok.1 e
    split at e
    · cases e
    · rename_i hr
      obtain ⟨d, e3, e⟩ := Res.bind_eq_ok.1 e
      have := Option.some.inj (Res.ok.inj e)
      subst this
      refine ⟨fun hz c hc => ?_, hr⟩
      obtain ⟨l', e4, -, -, -, hit, -⟩ := shrink_spec f.wf (sp := numKeys p / 2) (by omega)
      rw [e2] at e4; cases e4
      have hlen : numKeys l = min (numKeys p / 2) (numKeys p) := by rw [← items_length, hit, List.length_take, items_length]
      by_cases h0 : numKeys p = 0
      · exfalso
        simp only [h0, Nat.zero_div, Nat.sub_self, moveNodes] at e1
        have hr' : r = emptyPage false no := (Res.ok.inj e1).symm
        rw [hr'] at hr
        exact hr (emptyPage_fields false no hno).2.1
      · have hz' : numKeys l = 0 := hz
        have hhalf : numKeys p / 2 = 0 := by omega
        rw [hhalf] at e2
        have hc' : child l 0 = .ok c := hc
        rw [shrink_child f.wf (by omega) e2] at hc'
        obtain ⟨it, hm, rfl⟩ := child_mem f.wf hl (by omega) hc'
        exact f.kids hl it hm
  refine ⟨⟨g1.wf, fun hl => pr g1 (k1 ▸ hl), fun hl => kd g1 (k1 ▸ hl), fun hl hz => (st (k1 ▸ hl)).1 hz, fun hl m hm hd => (li (k1 ▸ hl) m hm hd).1⟩,
    ⟨g2.wf, fun hl => pr g2 (k2 ▸ hl), fun hl => kd g2 (k2 ▸ hl), fun hl hz => absurd hz (st (k2 ▸ hl)).2, fun hl m hm hd => (li (k2 ▸ hl) m hm hd).2⟩, k1, k2, n1, n2⟩

/-! ### Splits -/

/-- What an allocator does. -/
structure Gives (B : Bytes → Bytes → Prop) (S : Nat → Prop) (env : Env) (al : Alloc) : Prop where
  mono : Mono env al
  fair : ∀ t r, Fair B S t → al t = .ok r → r.2.newLast < lim → Fair B S r.2 ∧ 2 ≤ r.1 ∧ r.1 < lim ∧ r.2.root = t.root

/-- The entry belongs into a page of this kind. -/
structure Goes (A : Bytes → Bytes → Prop) (S : Nat → Prop) (leaf : Bool) (it : Item) : Prop where
  kind : it.hasData = leaf
  small : it.child < 2 ^ 64
  pair : leaf = true → A it.key it.val
  kid : leaf = false → S it.child

theorem Goes.fits {leaf : Bool} {it : Item} (g : Goes A S leaf it) {p : Page} (h : isLeaf p = leaf) : Fits A S p it :=
  ⟨g.kind.trans h.symm, g.small, fun hl => g.pair (h ▸ hl), fun hl => g.kid (h ▸ hl)⟩

theorem Goes.mono {A' : Bytes → Bytes → Prop} {S' : Nat → Prop} {leaf : Bool} {it : Item} (g : Goes A S leaf it) (hA : ∀ k v, A k v → A' k v) (hS : ∀ n, S n → S' n) :
    Goes A' S' leaf it := ⟨g.kind, g.small, fun h => hA _ _ (g.pair h), fun h => hS _ (g.kid h)⟩

/-- As before, for the pages in use inside a transaction. -/
abbrev Goes' (B : Bytes → Bytes → Prop) (S : Nat → Prop) (t : Txn) : Bool → Item → Prop := Goes (May B (Has S t)) (Has S t)

/-- As before, for the pages in use inside a transaction. -/
abbrev Fine' (B : Bytes → Bytes → Prop) (S : Nat → Prop) (t : Txn) : Page → Prop := Fine (May B (Has S t)) (Has S t)

theorem Goes.later {t t' : Txn} (h : ∀ n, Has S t n → Has S t' n) {leaf : Bool} {it : Item} (g : Goes' B S t leaf it) : Goes' B S t' leaf it :=
  g.mono (fun _ _ m => m.mono h) h

theorem Fine.later {t t' : Txn} (h : ∀ n, Has S t n → Has S t' n) {p : Page} (g : Fine' B S t p) : Fine' B S t' p :=
  g.mono (fun _ _ m => m.mono h) h

theorem lim64 {n : Nat} (h : n < lim) : n < 2 ^ 64 := by rw [lim_eq] at h; omega

theorem splitTxn_fair {al : Alloc} (ha : Gives B S env al) {t : Txn} (F : Fair B S t) {leaf : Bool} {lk : Nat} {r : Txn × Except Status SplitTxn}
    (e : splitTxn al leaf t lk = .ok r) (hN : r.1.newLast < lim) :
    Fair B S r.1 ∧ r.1.root = t.root ∧ ∀ s, r.2 = .ok s → Has S r.1 s.no ∧ 2 ≤ s.no ∧ s.no < lim ∧ Has S r.1 lk ∧ 2 ≤ lk ∧ lk < lim ∧
      Fine' B S r.1 s.left ∧ Fine' B S r.1 s.right ∧ isLeaf s.left = leaf ∧ isLeaf s.right = leaf ∧ pgno s.left = lk ∧ pgno s.right = s.no := by
  unfold splitTxn at e
  obtain ⟨p, e1, e⟩ := Res.bind_eq_ok.1 e
  by_cases hk : (!(if leaf = true then isLeaf p else isBranch p)) = true
  · rw [if_pos hk] at e
    cases e; exact ⟨F, rfl, fun s h => by cases h⟩
  · rw [if_neg hk] at e
    obtain ⟨a, e2, e⟩ := Res.bind_eq_ok.1 e
    obtain ⟨p', e3, e⟩ := Res.bind_eq_ok.1 e
    obtain ⟨o, e4, e⟩ := Res.bind_eq_ok.1 e
    have hd : a.2.getDirty lk = some p' := by
      cases hx : a.2.getDirty lk with
      | none => rw [hx] at e3; cases e3
      | some q => rw [hx, Res.ofOption_some] at e3; rw [Res.ok.inj e3]
    cases o with
    | none =>
      cases e
      obtain ⟨F', -, -, hr⟩ := ha.fair t a F e2 hN
      exact ⟨F', hr, fun s h => by cases h⟩
    | some s =>
      have e := (Res.ok.inj e)
      subst e
      obtain ⟨F', h2, hl, hr⟩ := ha.fair t a F e2 hN
      obtain ⟨k2, kl, kn, kf⟩ := F'.dirty lk p' hd
      have hkind : isLeaf p' = leaf := by
        cases leaf with
        | true =>
          rw [if_pos rfl] at e4
          unfold splitLeaf at e4
          cases hx : isLeaf p' with
          | true => rfl
          | false => rw [hx] at e4; cases e4
        | false =>
          rw [if_neg (by simp)] at e4
          unfold splitBranch at e4
          cases hx : isBranch p' with
          | true => have := leaf_branch kf.wf; rw [hx] at this; exact this.symm
          | false => rw [hx] at e4; cases e4
      obtain ⟨f1, f2, l1, l2, n1, n2⟩ := split_fine kf hkind (lim64 hl) e4
      have F1 := F'.set' k2 kl (n1.trans kn) f1
      have hg1 : ∀ n, Has S a.2 n → Has S (a.2.setDirty lk s.left) n := fun n => has_set _ _ _
      have F2 := F1.set' h2 hl n2 (f2.later hg1)
      have hg2 : ∀ n, Has S a.2 n → Has S ((a.2.setDirty lk s.left).setDirty a.1 s.right) n := fun n h => has_set _ _ _ (hg1 n h)
      refine ⟨F2, hr, fun s' hs => ?_⟩
      cases hs
      exact ⟨has_self _ _ _, h2, hl, has_set _ _ _ (has_self _ _ _), k2, kl, f1.later hg2, f2.later hg2, l1, l2, n1.trans kn, n2⟩

theorem insertHalf_fair {t : Txn} (F : Fair B S t) {lk : Nat} {s : SplitTxn} {leaf : Bool} (h2 : 2 ≤ s.no) (hl : s.no < lim) (k2 : 2 ≤ lk) (kl : lk < lim)
    (f1 : Fine' B S t s.left) (f2 : Fine' B S t s.right) (l1 : isLeaf s.left = leaf) (l2 : isLeaf s.right = leaf) (n1 : pgno s.left = lk) (n2 : pgno s.right = s.no)
    {it : Item} (hg : Goes' B S t leaf it) {r : Status × Txn} (e : insertHalf t lk s it = .ok r) :
    Fair B S r.2 ∧ r.2.newLast = t.newLast ∧ r.2.root = t.root ∧ ∀ n, Has S t n → Has S r.2 n := by
  unfold insertHalf at e
  obtain ⟨f, e1, e⟩ := Res.bind_eq_ok.1 e
  split at e
  · obtain ⟨f', e2, e⟩ := Res.bind_eq_ok.1 e
    obtain ⟨q, e3, e⟩ := Res.bind_eq_ok.1 e
    cases e
    obtain ⟨g, n, -⟩ := insert_fine f2 (probe_any f2.wf e2).1 (hg.fits l2) e3
    exact ⟨F.set' h2 hl (n.trans n2) g, rfl, rfl, fun m => has_set _ _ _⟩
  · obtain ⟨q, e3, e⟩ := Res.bind_eq_ok.1 e
    obtain ⟨g, n, -⟩ := insert_fine f1 (probe_any f1.wf e1).1 (hg.fits l1) e3
    have e := Res.ok.inj e
    subst e
    by_cases hx : s.no = lk
    · simp only [if_pos hx]; exact ⟨F, trivial, trivial, fun _ h => h⟩
    · simp only [if_neg hx]; exact ⟨F.set' k2 kl (n.trans n1) g, rfl, rfl, fun m => has_set _ _ _⟩

theorem propagate_fair {al : Alloc} (ha : Gives B S env al) (hb : Base B S env.file env.filePages) : ∀ (l : List Nat) {t : Txn} {k : Bytes} {c : Nat}
    {r : Txn × Status × Bytes × Nat}, Fair B S t → Has S t c → propagate al l t k c = .ok r → r.1.newLast < lim →
    Fair B S r.1 ∧ r.1.root = t.root ∧ Has S r.1 r.2.2.2 := by
  intro l
  induction l with
  | nil => intro t k c r F hc e _; cases e; exact ⟨F, rfl, hc⟩
  | cons n l ih =>
    intro t k c r F hc e hN
    rw [propagate] at e
    cases hd : t.getDirty n with
    | none => rw [hd] at e; cases e; exact ⟨F, rfl, hc⟩
    | some p =>
      rw [hd] at e
      simp only [] at e
      obtain ⟨k2, kl, kn, kf⟩ := F.dirty n p hd
      obtain ⟨f, e1, e⟩ := Res.bind_eq_ok.1 e
      obtain ⟨q, e2, e⟩ := Res.bind_eq_ok.1 e
      have hgo : Goes' B S t false (.branch k c) := ⟨rfl, lim64 (F.bound hb hc).2, fun h => (by cases h), fun _ => hc⟩
      cases hlf : isLeaf p with
      | true =>
        rw [insert_refused hlf] at e2
        have e2 := Res.ok.inj e2
        subst e2
        simp only [] at e
        cases e
        exact ⟨F, rfl, hc⟩
      | false =>
      obtain ⟨fq, nq, -⟩ := insert_fine kf (probe_any kf.wf e1).1 (hgo.fits hlf) e2
      split at e
      · cases e
        exact ⟨F.set' k2 kl (nq.trans kn) fq, rfl, has_set _ _ _ hc⟩
      · cases e; exact ⟨F, rfl, hc⟩
      · obtain ⟨sp, e3, e⟩ := Res.bind_eq_ok.1 e
        have hgrow : ∀ m, Has S t m → Has S sp.1 m := fun m h => splitTxn_inv (closed_has env S m) (ha.mono.has S m) e3 h
        cases hs : sp.2 with
        | error x =>
          rw [hs] at e; cases e
          obtain ⟨F', hr, -⟩ := splitTxn_fair ha F e3 hN
          exact ⟨F', hr, hgrow _ hc⟩
        | ok s =>
          rw [hs] at e
          simp only [] at e
          obtain ⟨hh, e4, e⟩ := Res.bind_eq_ok.1 e
          have hlast : sp.1.newLast ≤ r.1.newLast := by
            have h1 : sp.1.newLast ≤ hh.2.newLast := insertHalf_inv (closed_last env sp.1.newLast) e4 (Nat.le_refl _)
            split at e
            · exact propagate_inv (closed_last env sp.1.newLast) (ha.mono.last _) _ e h1
            · cases e; exact h1
          obtain ⟨F', hr, hs'⟩ := splitTxn_fair ha F e3 (by omega)
          obtain ⟨a1, a2, a3, b1, b2, b3, f1, f2, l1, l2, n1, n2⟩ := hs' s hs
          obtain ⟨F2, -, hr2, hg2⟩ := insertHalf_fair F' a2 a3 b2 b3 f1 f2 l1 l2 n1 n2 (hgo.later hgrow) e4
          split at e
          · obtain ⟨F3, hr3, hh3⟩ := ih F2 (hg2 _ a1) e hN
            exact ⟨F3, hr3.trans (hr2.trans hr), hh3⟩
          · cases e
            exact ⟨F2, hr2.trans hr, hg2 _ (hgrow _ hc)⟩

theorem rootSplit_fair {al : Alloc} (ha : Gives B S env al) (hb : Base B S env.file env.filePages) {t : Txn} (F : Fair B S t) {old right : Nat} {d : Bytes}
    (ho : Has S t old) (hr : Has S t right) {r : Txn × Except Status Nat} (e : rootSplit al t old right d = .ok r) (hN : r.1.newLast < lim) :
    Fair B S r.1 ∧ r.1.root = t.root ∧ ∀ n, r.2 = .ok n → Has S r.1 n := by
  unfold rootSplit at e
  obtain ⟨a, e1, e⟩ := Res.bind_eq_ok.1 e
  have hgrow : ∀ m, Has S t m → Has S a.2 m := fun m h => ha.mono.has S m t a e1 h
  simp only [] at e
  have hfail : ∀ x, r = (a.2, Except.error x) → Fair B S r.1 ∧ r.1.root = t.root ∧ ∀ n, r.2 = .ok n → Has S r.1 n := by
    intro x hx
    subst hx
    obtain ⟨F', -, -, hr⟩ := ha.fair t a F e1 hN
    exact ⟨F', hr, fun n h => by cases h⟩
  split at e
  · exact hfail _ (Res.ok.inj e).symm
  · obtain ⟨k, e2, e⟩ := Res.bind_eq_ok.1 e
    obtain ⟨q, e3, e⟩ := Res.bind_eq_ok.1 e
    split at e
    · rename_i hok
      obtain ⟨q2, e4, e⟩ := Res.bind_eq_ok.1 e
      split at e
      · have e := Res.ok.inj e
        subst e
        obtain ⟨F', h2, hl, hroot⟩ := ha.fair t a F e1 hN
        have h64 := lim64 hl
        have hg : ∀ m, Has S t m → Has S (a.2.setDirty a.1 q2.2) m := fun m h => has_set _ _ _ (hgrow m h)
        have hf := emptyPage_fields false a.1 h64
        have hle : isLeaf (emptyPage false a.1) = false := (kind_branch hf.1).1
        have goes : ∀ {k x}, Has S t x → Goes' B S (a.2.setDirty a.1 q2.2) false (.branch k x) := fun {k x} hx =>
          ⟨rfl, lim64 (F.bound hb hx).2, fun h => (by cases h), fun _ => hg _ hx⟩
        have f0 : Fine' B S (a.2.setDirty a.1 q2.2) (emptyPage false a.1) := empty_fine h64 fun _ => has_self _ _ _
        obtain ⟨g1, n1, l1, i1⟩ := insert_fine f0 (Nat.zero_le _) ((goes ho).fits hle) e3
        have hnk : 1 ≤ numKeys q.2 := by
          rw [← items_length, i1 hok, emptyPage_items _ _ h64]; simp
        obtain ⟨g2, n2, -⟩ := insert_fine g1 hnk ((goes hr).fits (l1.trans hle)) e4
        exact ⟨F'.set h2 hl (n2.trans (n1.trans hf.2.2.2.2)) g2, hroot, fun n hn => by cases hn; exact has_self _ _ _⟩
      · exact hfail _ (Res.ok.inj e).symm
    · exact hfail _ (Res.ok.inj e).symm

theorem pageSplit_fair {al : Alloc} (ha : Gives B S env al) (hb : Base B S env.file env.filePages) {t : Txn} (F : Fair B S t) {lk : Nat} {path : List Nat} {key val : Bytes}
    (hroot : Has S t (path.headD 0)) (hA : May B (Has S t) key val) {r : Txn × Except Status Nat} (e : pageSplit al t lk path key val = .ok r) (hN : r.1.newLast < lim) :
    Fair B S r.1 ∧ r.1.root = t.root ∧ ∀ n, r.2 = .ok n → Has S r.1 n := by
  unfold pageSplit at e
  obtain ⟨sp, e1, e⟩ := Res.bind_eq_ok.1 e
  have hgrow : ∀ m, Has S t m → Has S sp.1 m := fun m h => splitTxn_inv (closed_has env S m) (ha.mono.has S m) e1 h
  cases hs : sp.2 with
  | error x =>
    rw [hs] at e; cases e
    obtain ⟨F', hr, -⟩ := splitTxn_fair ha F e1 hN
    exact ⟨F', hr, fun n h => by cases h⟩
  | ok s =>
    rw [hs] at e
    simp only [] at e
    obtain ⟨hh, e2, e⟩ := Res.bind_eq_ok.1 e
    have hl1 : sp.1.newLast ≤ hh.2.newLast := insertHalf_inv (closed_last env sp.1.newLast) e2 (Nat.le_refl _)
    have hl2 : hh.2.newLast ≤ r.1.newLast := by
      split at e
      · obtain ⟨d, -, e⟩ := Res.bind_eq_ok.1 e
        obtain ⟨q, e3, e⟩ := Res.bind_eq_ok.1 e
        have := propagate_inv (closed_last env hh.2.newLast) (ha.mono.last _) _ e3 (Nat.le_refl _)
        split at e
        · cases e; exact this
        · split at e
          · exact rootSplit_inv (closed_last env hh.2.newLast) (ha.mono.last _) e this
          · cases e; exact this
      · cases e; exact Nat.le_refl _
    obtain ⟨F', hr, hs'⟩ := splitTxn_fair ha F e1 (by omega)
    obtain ⟨a1, a2, a3, b1, b2, b3, f1, f2, l1, l2, n1, n2⟩ := hs' s hs
    have hgo : Goes' B S t true (.leaf key val) := ⟨rfl, by show 0 < 2 ^ 64; omega, fun _ => hA, fun h => by cases h⟩
    obtain ⟨F2, -, hr2, hg2⟩ := insertHalf_fair F' a2 a3 b2 b3 f1 f2 l1 l2 n1 n2 (hgo.later hgrow) e2
    split at e
    · obtain ⟨d, -, e⟩ := Res.bind_eq_ok.1 e
      obtain ⟨q, e3, e⟩ := Res.bind_eq_ok.1 e
      have hg3 : ∀ m, Has S hh.2 m → Has S q.1 m := fun m h => propagate_inv (closed_has env S m) (ha.mono.has S m) _ e3 h
      have hl3 : q.1.newLast ≤ r.1.newLast := by
        split at e
        · cases e; exact Nat.le_refl _
        · split at e
          · exact rootSplit_inv (closed_last env q.1.newLast) (ha.mono.last _) e (Nat.le_refl _)
          · cases e; exact Nat.le_refl _
      obtain ⟨F3, hr3, hc3⟩ := propagate_fair ha hb _ F2 (hg2 _ a1) e3 (by omega)
      have hold := hg3 _ (hg2 _ (hgrow _ hroot))
      split at e
      · cases e; exact ⟨F3, hr3.trans (hr2.trans hr), fun n hn => by cases hn; exact hold⟩
      · split at e
        · obtain ⟨F4, hr4, h4⟩ := rootSplit_fair ha hb F3 hold hc3 e hN
          exact ⟨F4, hr4.trans (hr3.trans (hr2.trans hr)), h4⟩
        · cases e; exact ⟨F3, hr3.trans (hr2.trans hr), fun n hn => by cases hn⟩
    · cases e; exact ⟨F2, hr2.trans hr, fun n hn => by cases hn⟩

theorem newTree_fair {al : Alloc} (ha : Gives B S env al) {t : Txn} (F : Fair B S t) {key val : Bytes} (hA : May B (Has S t) key val) {r : Txn × Except Status Nat}
    (e : newTree al t key val = .ok r) (hN : r.1.newLast < lim) : Fair B S r.1 ∧ r.1.root = t.root ∧ ∀ n, r.2 = .ok n → Has S r.1 n := by
  unfold newTree at e
  obtain ⟨a, e1, e⟩ := Res.bind_eq_ok.1 e
  obtain ⟨q, e2, e⟩ := Res.bind_eq_ok.1 e
  have hgrow : ∀ m, Has S t m → Has S a.2 m := fun m h => ha.mono.has S m t a e1 h
  split at e
  · have e := Res.ok.inj e
    subst e
    obtain ⟨F', h2, hl, hroot⟩ := ha.fair t a F e1 hN
    have hf := emptyPage_fields true a.1 (lim64 hl)
    have hle : isLeaf (emptyPage true a.1) = true := (kind_leaf hf.1).1
    have hgo : Goes' B S a.2 true (.leaf key val) := ⟨rfl, by show 0 < 2 ^ 64; omega, fun _ => hA.mono hgrow, fun h => by cases h⟩
    obtain ⟨g, n, -⟩ := insert_fine (empty_fine (lim64 hl) fun h => by cases h) (Nat.zero_le _) (hgo.fits hle) e2
    exact ⟨F'.set' h2 hl (n.trans hf.2.2.2.2) g, hroot, fun n hn => by cases hn; exact has_self _ _ _⟩
  · have e := Res.ok.inj e
    subst e
    obtain ⟨F', -, -, hroot⟩ := ha.fair t a F e1 hN
    exact ⟨F', hroot, fun n hn => by cases hn⟩

theorem withRoot_fair {r : Txn × Except Status Nat} (F : Fair B S r.1) (h : ∀ n, r.2 = .ok n → Has S r.1 n) : Fair B S (withRoot r).2 := by
  obtain ⟨t, x⟩ := r
  cases x with
  | error e => exact F
  | ok n => exact F.reroot (.inr (h n rfl))

theorem withRoot_last (r : Txn × Except Status Nat) : (withRoot r).2.newLast = r.1.newLast := by
  obtain ⟨t, x⟩ := r
  cases x <;> rfl

/-! ### The way down -/

theorem stepDown {t : Txn} (F : Fair B S t) (hb : Base B S env.file env.filePages) {n : Nat} (hn : Has S t n) {p : Page} (hp : getPage env t n = .ok p) (hl : isLeaf p = false) (hbr : isBranch p = true)
    {key : Bytes} {i c : Nat} (h1 : childIdx p key = .ok i) (h2 : child p i = .ok c) : Has S t c := by
  obtain ⟨-, f⟩ := F.got hb hn hp (.inr hbr)
  rcases childIdx_any f.wf h1 with hi | ⟨-, rfl⟩
  · obtain ⟨it, hm, rfl⟩ := child_mem f.wf hl hi h2
    exact f.kids hl it hm
  · rw [child_empty] at h2; cases h2

theorem findPath_fair {t : Txn} (F : Fair B S t) (hb : Base B S env.file env.filePages) {key : Bytes} : ∀ {d n : Nat} {path : List Nat},
    Has S t n → findPath env t key d n = .ok (.ok path) → path ≠ [] ∧ path.headD 0 = n ∧ (∀ m ∈ path, Has S t m ∧ ∃ p, getPage env t m = .ok p ∧ Kind p) ∧
      ∃ p, getPage env t (path.getLastD 0) = .ok p ∧ isLeaf p = true := by
  intro d
  induction d with
  | zero => intro n path _ e; cases e
  | succ d ih =>
    intro n path hn e
    rw [findPath] at e
    split at e
    · cases e
    · obtain ⟨p, hp, e⟩ := Res.bind_eq_ok.1 e
      split at e
      · rename_i hl
        cases e
        refine ⟨by simp, rfl, fun m hm => ?_, p, hp, hl⟩
        rw [List.mem_singleton] at hm; subst hm
        exact ⟨hn, p, hp, .inl hl⟩
      · rename_i hl
        split at e
        · cases e
        · rename_i hbr
          have hbr : isBranch p = true := by simpa using hbr
          obtain ⟨i, e1, e⟩ := Res.bind_eq_ok.1 e
          obtain ⟨c, e2, e⟩ := Res.bind_eq_ok.1 e
          obtain ⟨x, e3, e⟩ := Res.bind_eq_ok.1 e
          cases x with
          | error _ => cases e
          | ok r =>
            cases e
            obtain ⟨a1, a2, a3, q, a4, a5⟩ := ih (stepDown F hb hn hp (by simpa using hl) hbr e1 e2) e3
            refine ⟨by simp, rfl, fun m hm => ?_, q, ?_, a5⟩
            · rcases List.mem_cons.1 hm with rfl | hm
              · exact ⟨hn, p, hp, .inr hbr⟩
              · exact a3 m hm
            · cases r with
              | nil => exact absurd rfl a1
              | cons x r => simpa [List.getLastD] using a4

theorem cow_fair {t : Txn} (F : Fair B S t) (hb : Base B S env.file env.filePages) {n : Nat} (hn : Has S t n) (hk : ∃ p, getPage env t n = .ok p ∧ Kind p) {r : Nat × Txn}
    (e : cow env t n = .ok r) : Fair B S r.2 ∧ Same env t r.2 := by
  obtain ⟨q, hq, hk⟩ := hk
  obtain ⟨g1, g2⟩ := F.got hb hn hq hk
  obtain ⟨t2, e2, s2, -⟩ := cow_spec F.rdonly hq g1 g2.wf
  rw [e2] at e
  refine ⟨?_, by rw [← Res.ok.inj e]; exact s2⟩
  rw [← e2] at e
  unfold cow at e
  cases hd : t.getDirty n with
  | some p => rw [hd] at e; cases e; exact F
  | none =>
    rw [hd] at e
    simp only [] at e
    obtain ⟨p, h1, -, h2 | h2⟩ := getWritable_cases e
    · rw [h2.1]; exact F
    · have hp : getPage env t n = .ok p := by
        unfold getPage; rw [F.rdonly, hd]; exact h1
      obtain ⟨a, f⟩ : pgno p = n ∧ Fine (May B (Has S t)) (Has S t) p := by
        rw [hq] at hp
        rw [← Res.ok.inj hp]; exact ⟨g1, g2⟩
      rw [h2, a]
      have F' := F.set' (F.bound hb hn).1 (F.bound hb hn).2 a f
      refine ⟨F'.rdonly, F'.low, F'.dirty, fun m hm => ?_, F'.root, F'.froot, F'.uniq⟩
      rcases List.mem_append.1 hm with hm | hm
      · exact F'.freed m hm
      · rw [List.mem_singleton] at hm; subst hm; exact has_self _ _ _

theorem cowAll_fair (hb : Base B S env.file env.filePages) : ∀ (l : List Nat) {t t' : Txn}, Fair B S t → (∀ n ∈ l, Has S t n ∧ ∃ p, getPage env t n = .ok p ∧ Kind p) → cowAll env t l = .ok t' → Fair B S t' := by
  intro l
  induction l with
  | nil => intro t t' F _ e; cases e; exact F
  | cons n l ih =>
    intro t t' F h e
    rw [cowAll] at e
    obtain ⟨r, e1, e⟩ := Res.bind_eq_ok.1 e
    obtain ⟨F1, s1⟩ := cow_fair F hb (h n List.mem_cons_self).1 (h n List.mem_cons_self).2 e1
    refine ih F1 (fun m hm => ?_) e
    obtain ⟨h1, h2⟩ := h m (List.mem_cons_of_mem _ hm)
    exact ⟨cow_inv (closed_has env S m) e1 h1, by rw [s1.view]; exact h2⟩

theorem cowPath_fair (hb : Base B S env.file env.filePages) {t : Txn} (F : Fair B S t) {l : List Nat} (h : ∀ n ∈ l, Has S t n ∧ ∃ p, getPage env t n = .ok p ∧ Kind p) {r : Nat × Txn}
    (e : cowPath env t l = .ok r) : Fair B S r.2 := by
  cases l with
  | nil => cases e
  | cons n l =>
    rw [cowPath] at e
    obtain ⟨x, e1, e⟩ := Res.bind_eq_ok.1 e
    obtain ⟨t', e2, e⟩ := Res.bind_eq_ok.1 e
    cases e
    obtain ⟨F1, s1⟩ := cow_fair F hb (h n List.mem_cons_self).1 (h n List.mem_cons_self).2 e1
    refine cowAll_fair hb l F1 (fun m hm => ?_) e2
    obtain ⟨h1, h2⟩ := h m (List.mem_cons_of_mem _ hm)
    exact ⟨cow_inv (closed_has env S m) e1 h1, by rw [s1.view]; exact h2⟩

/-- The copies of the pages of a path. -/
theorem cowPath_all (hb : Base B S env.file env.filePages) {t : Txn} (F : Fair B S t) {path : List Nat} (hne : path ≠ []) (h : ∀ m ∈ path, Has S t m ∧ ∃ p, getPage env t m = .ok p ∧ Kind p)
    {c : Nat × Txn} (e : cowPath env t path.reverse = .ok c) : c.1 = path.getLastD 0 ∧ Same env t c.2 ∧ Fair B S c.2 ∧ ∀ m, Has S t m → Has S c.2 m := by
  obtain ⟨t1, h1, s1, -, -⟩ := cowPath_spec F.rdonly hne (fun n hn => by
    obtain ⟨a, p, hp, hk⟩ := h n hn
    exact ⟨p, hp, (F.got hb a hp hk).1, (F.got hb a hp hk).2.wf⟩)
  rw [h1] at e; cases e
  exact ⟨rfl, s1, cowPath_fair hb F (fun n hn => h n (List.mem_reverse.1 hn)) h1, fun m hm => cowPath_inv (closed_has env S m) h1 hm⟩

theorem last_mem {path : List Nat} (h : path ≠ []) : path.getLastD 0 ∈ path := by
  rw [List.getLastD_eq_getLast?, List.getLast?_eq_some_getLast h]
  exact List.getLast_mem h

/-! ### Puts and deletions -/

theorem leaf_goes {t : Txn} {key val : Bytes} (hA : May B (Has S t) key val) : Goes' B S t true (.leaf key val) :=
  ⟨rfl, by show 0 < 2 ^ 64; omega, fun _ => hA, fun h => by cases h⟩

theorem putWith_fair {al : Alloc} (ha : Gives B S env al) (hb : Base B S env.file env.filePages) {t : Txn} (F : Fair B S t) {key val : Bytes} (hA : May B (Has S t) key val)
    {r : Status × Txn} (e : putWith al env t key val = .ok r) (hN : r.2.newLast < lim) : Fair B S r.2 := by
  unfold putWith at e
  rw [F.rdonly] at e
  simp only [Bool.false_eq_true, if_false] at e
  split at e
  · obtain ⟨x, e1, e⟩ := Res.bind_eq_ok.1 e
    cases e
    rw [withRoot_last] at hN
    obtain ⟨F', -, h⟩ := newTree_fair ha F hA e1 hN
    exact withRoot_fair F' h
  · rename_i hz
    have hr : Has S t t.root := F.root.resolve_left hz
    obtain ⟨x, e1, e⟩ := Res.bind_eq_ok.1 e
    cases x with
    | error s => cases e; exact F
    | ok path =>
      obtain ⟨hne, hhead, hall, -⟩ := findPath_fair F hb hr e1
      obtain ⟨leaf, e2, e⟩ := Res.bind_eq_ok.1 e
      obtain ⟨f, e3, e⟩ := Res.bind_eq_ok.1 e
      split at e
      · cases e; exact F
      · obtain ⟨c, e4, e⟩ := Res.bind_eq_ok.1 e
        obtain ⟨c1, s1, F1, g1⟩ := cowPath_all hb F hne hall e4
        obtain ⟨p, e5, e⟩ := Res.bind_eq_ok.1 e
        have hdp : c.2.getDirty c.1 = some p := by
          cases hx : c.2.getDirty c.1 with
          | none => rw [hx] at e5; cases e5
          | some q => rw [hx, Res.ofOption_some] at e5; rw [Res.ok.inj e5]
        obtain ⟨k2, kl, kn, kf⟩ := F1.dirty _ _ hdp
        have hleaf : leaf = p := by
          have := s1.view (path.getLastD 0)
          rw [e2, ← c1, getPage_dirty F1.rdonly hdp] at this
          exact (Res.ok.inj this).symm
        subst hleaf
        have hlf : isLeaf leaf = true := by
          obtain ⟨-, -, -, q, h1, h2⟩ := findPath_fair F hb hr e1
          rw [e2] at h1; cases h1; exact h2
        obtain ⟨d, e6, e⟩ := Res.bind_eq_ok.1 e
        have hd2 : Fine' B S c.2 d.2 ∧ pgno d.2 = pgno leaf ∧ isLeaf d.2 = true ∧ (d.1 = .ok → f.idx ≤ numKeys d.2) := by
          obtain ⟨hbd, hfd⟩ := probe_any kf.wf e3
          cases f with
          | notFound i =>
            simp only [Found.hit, Bool.false_eq_true, if_false] at e6
            cases e6; exact ⟨kf, rfl, hlf, fun _ => hbd⟩
          | found i =>
            simp only [Found.hit, if_true] at e6
            obtain ⟨a, b, c, d⟩ := delete_fine kf hlf e6
            refine ⟨a, b, c, fun hok => ?_⟩
            obtain ⟨d1, d2⟩ := d hok
            show i ≤ _
            have : i < numKeys leaf := d2
            omega
        obtain ⟨f2, n2, l2, hidx⟩ := hd2
        have F2 := F1.set' k2 kl (n2.trans kn) f2
        have g2 : ∀ m, Has S c.2 m → Has S (c.2.setDirty c.1 d.2) m := fun m => has_set _ _ _
        split at e
        · rename_i hok
          obtain ⟨q, e7, e⟩ := Res.bind_eq_ok.1 e
          have hA2 := hA.mono fun m h => g2 m (g1 m h)
          obtain ⟨f3, n3, -⟩ := insert_fine (f2.later g2) (hidx hok) ((leaf_goes hA2).fits l2) e7
          split at e
          · cases e
            exact F2.set' k2 kl (n3.trans (n2.trans kn)) f3
          · cases e; exact F2
          · obtain ⟨x, e8, e⟩ := Res.bind_eq_ok.1 e
            cases e
            rw [withRoot_last] at hN
            obtain ⟨F3, -, h3⟩ := pageSplit_fair ha hb F2 (by rw [hhead]; exact g2 _ (g1 _ hr)) hA2 e8 hN
            exact withRoot_fair F3 h3
        · cases e; exact F2

theorem del_fair (hb : Base B S env.file env.filePages) {t : Txn} (F : Fair B S t) {key : Bytes} {r : Status × Txn} (e : del env t key = .ok r) : Fair B S r.2 ∧ r.2.root = t.root := by
  unfold del at e
  rw [F.rdonly] at e
  simp only [Bool.false_eq_true, if_false] at e
  split at e
  · cases e; exact ⟨F, rfl⟩
  · rename_i hz
    have hr : Has S t t.root := F.root.resolve_left hz
    obtain ⟨x, e1, e⟩ := Res.bind_eq_ok.1 e
    cases x with
    | error s => cases e; exact ⟨F, rfl⟩
    | ok path =>
      obtain ⟨hne, hhead, hall, q, hq, hlf⟩ := findPath_fair F hb hr e1
      obtain ⟨leaf, e2, e⟩ := Res.bind_eq_ok.1 e
      obtain ⟨f, e3, e⟩ := Res.bind_eq_ok.1 e
      split at e
      · obtain ⟨c, e4, e⟩ := Res.bind_eq_ok.1 e
        obtain ⟨c1, s1, F1, g1⟩ := cowPath_all hb F hne hall e4
        split at e
        · cases e; exact ⟨F1, s1.root⟩
        · rename_i p hdp
          obtain ⟨d, e5, e⟩ := Res.bind_eq_ok.1 e
          cases e
          obtain ⟨k2, kl, kn, kf⟩ := F1.dirty _ _ hdp
          have hl : isLeaf p = true := by
            have := s1.view (path.getLastD 0)
            rw [hq, getPage_dirty F1.rdonly hdp] at this
            rw [Res.ok.inj this]; exact hlf
          obtain ⟨f2, n2, -⟩ := delete_fine kf hl e5
          exact ⟨F1.set' k2 kl (n2.trans kn) f2, s1.root⟩
      · cases e; exact ⟨F, rfl⟩

theorem putThrough_fair {al : Alloc} (ha : Gives B S env al) (hb : Base B S env.file env.filePages) {t : Txn} (F : Fair B S t) (hz : t.root ≠ 0) {n off : Nat} {key val : Bytes}
    (h8 : key.length = 8) (hA : ∀ k : Bytes, k.length = 8 → May B (Has S t) k val)
    {r : Status × Txn} (e : putThrough al env t n off key val = .ok r) (hN : r.2.newLast < lim) : Fair B S r.2 := by
  have hr : Has S t t.root := F.root.resolve_left hz
  unfold putThrough at e
  obtain ⟨x, e1, e⟩ := Res.bind_eq_ok.1 e
  cases x with
  | error s => cases e; exact F
  | ok path =>
    obtain ⟨hne, hhead, hall, q, hq, hlf⟩ := findPath_fair F hb hr e1
    simp only [] at e
    split at e
    · rename_i hlast
      obtain ⟨p, e2, e⟩ := Res.bind_eq_ok.1 e
      have hdp : t.getDirty n = some p := by
        cases hx : t.getDirty n with
        | none => rw [hx] at e2; cases e2
        | some q => rw [hx, Res.ofOption_some] at e2; rw [Res.ok.inj e2]
      have hl : isLeaf p = true := by
        rw [hlast, getPage_dirty F.rdonly hdp] at hq
        rw [Res.ok.inj hq]; exact hlf
      obtain ⟨f, e3, e⟩ := Res.bind_eq_ok.1 e
      split at e
      · cases e; exact F
      · obtain ⟨i, e4, e⟩ := Res.bind_eq_ok.1 e
        split at e
        · obtain ⟨c, e5, e⟩ := Res.bind_eq_ok.1 e
          obtain ⟨k, e6, e⟩ := Res.bind_eq_ok.1 e
          obtain ⟨j, e7, e⟩ := Res.bind_eq_ok.1 e
          cases e
          obtain ⟨c1, s1, F1, g1⟩ := cowPath_all hb F hne hall e5
          have hk : k.length = 8 := by
            unfold filedKey at e6
            simp only [] at e6
            split at e6
            · cases e6
            · rw [← Res.ok.inj e6, slice_length, h8]
          obtain ⟨k2, kl, kn, kf⟩ := F.dirty _ _ hdp
          obtain ⟨f3, n3, -⟩ := insert_fine (kf.later g1) (probe_any kf.wf e3).1 ((leaf_goes ((hA k hk).mono g1)).fits hl) e7
          have hc : c.1 = n := c1.trans hlast
          rw [hc]
          exact F1.set' k2 kl (n3.trans kn) f3
        · exact putWith_fair ha hb F (hA key h8) e hN
    · exact putWith_fair ha hb F (hA key h8) e hN

/-! ### Cursors -/

/-- A page that a cursor can stand on: one in use, or one without entries. -/
def Seen (B : Bytes → Bytes → Prop) (S : Nat → Prop) (t : Txn) (p : Page) : Prop := numKeys p = 0 ∨ Fine' B S t p

/-- A stack of branch pages in use. -/
def Branches (B : Bytes → Bytes → Prop) (S : Nat → Prop) (t : Txn) (st : List (Page × Nat)) : Prop := ∀ e ∈ st, isLeaf e.1 = false ∧ Seen B S t e.1

/-- A stack of pages in use; those below the top are branch pages. -/
def Stack (B : Bytes → Bytes → Prop) (S : Nat → Prop) (t : Txn) : List (Page × Nat) → Prop
  | [] => True
  | e :: st => Seen B S t e.1 ∧ Branches B S t st

theorem Branches.stack {t : Txn} {st : List (Page × Nat)} (h : Branches B S t st) : Stack B S t st := by
  cases st with
  | nil => exact trivial
  | cons e st => exact ⟨(h e List.mem_cons_self).2, fun x hx => h x (List.mem_cons_of_mem _ hx)⟩

theorem push_stack {t : Txn} {st : List (Page × Nat)} (h : Branches B S t st) {p : Page} (f : Seen B S t p) (i : Nat) : Stack B S t (push st p i) := by
  unfold push
  split
  · exact ⟨f, h⟩
  · exact h.stack

theorem push_branches {t : Txn} {st : List (Page × Nat)} (h : Branches B S t st) {p : Page} (f : Seen B S t p) (hl : isLeaf p = false) (i : Nat) : Branches B S t (push st p i) := by
  unfold push
  split
  · intro e he
    rcases List.mem_cons.1 he with rfl | he
    · exact ⟨hl, f⟩
    · exact h e he
  · exact h

theorem first_child {p : Page} (f : Fine A S p) (hl : isLeaf p = false) {c : Nat} (h : child p 0 = .ok c) : S c := by
  by_cases hz : numKeys p = 0
  · exact f.stale hl hz c h
  · obtain ⟨it, hm, rfl⟩ := child_mem f.wf hl (by omega) h
    exact f.kids hl it hm

theorem seekDown_fair {t : Txn} (F : Fair B S t) (hb : Base B S env.file env.filePages) : ∀ {fuel n : Nat} {st : List (Page × Nat)} {r : Status × List (Page × Nat)},
    Has S t n → Branches B S t st → seekDown env t .first fuel st n = .ok r → Stack B S t r.2 := by
  intro fuel
  induction fuel with
  | zero => intro n st r _ _ e; cases e
  | succ fuel ih =>
    intro n st r hn hst e
    rw [seekDown] at e
    obtain ⟨p, hp, e⟩ := Res.bind_eq_ok.1 e
    split at e
    · rename_i hl
      cases e; exact push_stack hst (.inr (F.got hb hn hp (.inl hl)).2) 0
    · rename_i hl
      split at e
      · cases e; exact hst.stack
      · rename_i hbr
        have f := (F.got hb hn hp (.inr (by simpa using hbr))).2
        obtain ⟨i, e1, e⟩ := Res.bind_eq_ok.1 e
        obtain ⟨c, e2, e⟩ := Res.bind_eq_ok.1 e
        have hi : 0 = i := Res.ok.inj e1
        subst hi
        have hl' : isLeaf p = false := by simpa using hl
        exact ih (first_child f hl' e2) (push_branches hst (.inr f) hl' _) e

/-- The way down ends in the first page of the file, or leads out of it. -/
theorem leftmost_zero {t : Txn} (F : Fair B S t) (hc : Calm env.file env.filePages) {fuel : Nat} {st : List (Page × Nat)} {r : Status × Cursor}
    (hst : Branches B S t st) (e : leftmost env t fuel st 0 = .ok r) : Stack B S t r.2.stack := by
  have hfile : ∀ {n p}, (n < 2 ∨ lim ≤ n) → getPage env t n = .ok p → n < env.filePages ∧ p = env.file n := by
    intro n p hn hp
    unfold getPage at hp
    rw [F.rdonly] at hp
    simp only [Bool.false_eq_true, if_false] at hp
    cases hd : t.getDirty n with
    | some q => have := F.dirty n q hd; omega
    | none =>
      rw [hd] at hp
      simp only [mapPage] at hp
      split at hp
      · rename_i h; exact ⟨h.2, (Res.ok.inj hp).symm⟩
      · cases hp
  cases fuel with
  | zero => cases e
  | succ fuel =>
    rw [leftmost] at e
    obtain ⟨p, hp, e⟩ := Res.bind_eq_ok.1 e
    obtain ⟨-, rfl⟩ := hfile (.inl (by omega)) hp
    split at e
    · split at e <;> (cases e; exact push_stack hst (.inl hc.keys) 0)
    · obtain ⟨c, e2, e⟩ := Res.bind_eq_ok.1 e
      obtain ⟨h1, h2⟩ := hc.out c e2
      cases fuel with
      | zero => cases e
      | succ fuel =>
        rw [leftmost] at e
        obtain ⟨q, hq, -⟩ := Res.bind_eq_ok.1 e
        have := (hfile (.inr h2) hq).1
        omega

theorem leftmost_fair {t : Txn} (F : Fair B S t) (hb : Base B S env.file env.filePages) : ∀ {fuel n : Nat} {st : List (Page × Nat)} {r : Status × Cursor},
    Has S t n → Branches B S t st → leftmost env t fuel st n = .ok r → Stack B S t r.2.stack := by
  intro fuel
  induction fuel with
  | zero => intro n st r _ _ e; cases e
  | succ fuel ih =>
    intro n st r hn hst e
    rw [leftmost] at e
    obtain ⟨p, hp, e⟩ := Res.bind_eq_ok.1 e
    rcases F.get hb hn hp with ⟨hz, hc⟩ | ⟨-, f⟩
    · subst hz
      rw [if_neg (by decide)] at e
      obtain ⟨c, e2, e⟩ := Res.bind_eq_ok.1 e
      have h0 : child zeroPage 0 = .ok 0 := by decide
      rw [h0] at e2
      rw [← Res.ok.inj e2] at e
      exact leftmost_zero F hc (push_branches hst (.inl (by decide)) (by decide) _) e
    · split at e
      · split at e <;> (cases e; exact push_stack hst (.inr f) 0)
      · rename_i hl
        obtain ⟨c, e2, e⟩ := Res.bind_eq_ok.1 e
        have hl' : isLeaf p = false := by simpa using hl
        exact ih (first_child f hl' e2) (push_branches hst (.inr f) hl' _) e

theorem nextUp_fair {t : Txn} (F : Fair B S t) (hb : Base B S env.file env.filePages) {fuel : Nat} : ∀ {st : List (Page × Nat)} {r : Status × Cursor},
    Branches B S t st → nextUp env t fuel st = .ok r → Stack B S t r.2.stack := by
  intro st
  induction st with
  | nil => intro r _ e; cases e; exact trivial
  | cons x st ih =>
    intro r hst e
    obtain ⟨p, i⟩ := x
    obtain ⟨hl, f⟩ := hst _ List.mem_cons_self
    have hst' : Branches B S t st := fun x hx => hst x (List.mem_cons_of_mem _ hx)
    rw [nextUp] at e
    split at e
    · rename_i hi
      obtain ⟨c, e1, e⟩ := Res.bind_eq_ok.1 e
      have f := f.resolve_left (fun h0 : numKeys p = 0 => by omega)
      obtain ⟨it, hm, rfl⟩ := child_mem f.wf hl hi e1
      refine leftmost_fair F hb (f.kids hl it hm) (fun y hy => ?_) e
      rcases List.mem_cons.1 hy with rfl | hy
      · exact ⟨hl, .inr f⟩
      · exact hst' y hy
    · exact ih hst' e

/-- What a step of the search for a free page gives. -/
def Found' (B : Bytes → Bytes → Prop) (S : Nat → Prop) (t : Txn) (r : Cursor × Except Status (Bytes × Bytes)) : Prop :=
  Stack B S t r.1.stack ∧ ∀ kv, r.2 = .ok kv → ∃ p i, Fine' B S t p ∧ i < numKeys p ∧ leafNode p i = .ok kv

theorem atCursor_fair {t : Txn} {c : Cursor} (h : Stack B S t c.stack) {x : Except Status (Bytes × Bytes)} (e : atCursor c = .ok x) : Found' B S t (c, x) := by
  refine ⟨h, fun kv hkv => ?_⟩
  simp only [] at hkv
  subst hkv
  obtain ⟨st, b⟩ := c
  unfold atCursor at e
  split at e
  · cases e
  · cases st with
    | nil => cases e
    | cons y st =>
      obtain ⟨p, i⟩ := y
      simp only [] at e
      split at e
      · cases e
      · obtain ⟨kv', e1, e⟩ := Res.bind_eq_ok.1 e
        cases e
        exact ⟨p, i, h.1.resolve_left (fun h0 : numKeys p = 0 => by omega), by omega, e1⟩

theorem cursorGet_fair {t : Txn} {fuel : Nat} {c : Cursor} {op : Op} (h : ∀ r, move env t fuel c op = .ok r → Stack B S t r.2.stack)
    {r : Cursor × Except Status (Bytes × Bytes)} (e : cursorGet env t fuel c op = .ok r) : Found' B S t r := by
  unfold cursorGet at e
  obtain ⟨x, e1, e⟩ := Res.bind_eq_ok.1 e
  split at e
  · obtain ⟨kv, e2, e⟩ := Res.bind_eq_ok.1 e
    cases e
    exact atCursor_fair (h x e1) e2
  · cases e
    exact ⟨h x e1, fun kv hkv => by cases hkv⟩

theorem first_fair {t : Txn} (F : Fair B S t) (hb : Base B S env.file env.filePages) {fuel : Nat} {r : Status × Cursor} (e : seek env t fuel .first = .ok r) :
    Stack B S t r.2.stack := by
  unfold seek at e
  split at e
  · cases e; exact trivial
  · rename_i hz
    obtain ⟨x, e1, e⟩ := Res.bind_eq_ok.1 e
    have hs := seekDown_fair F hb (F.root.resolve_left hz) (fun y hy => by cases hy) e1
    obtain ⟨s, st⟩ := x
    simp only [] at e
    split at e
    · cases st with
      | nil => cases e
      | cons y st =>
        obtain ⟨p, i⟩ := y
        simp only [] at e
        obtain ⟨j, e2, e⟩ := Res.bind_eq_ok.1 e
        cases j with
        | none => cases e; exact hs
        | some j =>
          simp only [] at e
          split at e <;> (cases e; exact hs)
    · cases e; exact hs

theorem next_fair {t : Txn} (F : Fair B S t) (hb : Base B S env.file env.filePages) {fuel : Nat} {c : Cursor} (hc : Stack B S t c.stack) {r : Status × Cursor}
    (e : next env t fuel c = .ok r) : Stack B S t r.2.stack := by
  obtain ⟨st, b⟩ := c
  unfold next at e
  split at e
  · cases e; exact hc
  · cases st with
    | nil => cases e; exact trivial
    | cons y st =>
      obtain ⟨p, i⟩ := y
      simp only [] at e
      split at e
      · cases e; exact hc
      · exact nextUp_fair F hb hc.2 e

theorem findEntry_fair {t : Txn} (F : Fair B S t) (hb : Base B S env.file env.filePages) {fuel oldest : Nat} : ∀ {n : Nat} {r : Cursor × Except Status (Bytes × Bytes)}
    {c : Cursor} {kv : Bytes × Bytes}, Found' B S t r → findEntry env t fuel oldest n r = .ok (some (c, kv)) →
    reclaimable oldest kv = true ∧ ∃ p i, Fine' B S t p ∧ i < numKeys p ∧ leafNode p i = .ok kv := by
  intro n
  induction n with
  | zero => intro r c kv _ e; cases e
  | succ n ih =>
    intro r c kv hr e
    rw [findEntry] at e
    split at e
    · cases e
    · rename_i kv' hkv
      split at e
      · rename_i hrec
        cases e
        exact ⟨hrec, hr.2 _ hkv⟩
      · obtain ⟨r', e1, e⟩ := Res.bind_eq_ok.1 e
        exact ih (cursorGet_fair (op := .next) (fun x hx => next_fair F hb hr.1 hx) e1) e

theorem u64_halves (p : Page) (o : Nat) : u64 p o = u16 p o + 65536 * (u16 p (o + 2) + 65536 * ule p (o + 4) 4) := by
  show (p o).toNat + 256 * ((p (o + 1)).toNat + 256 * ((p (o + 2)).toNat + 256 * ((p (o + 3)).toNat + 256 * ule p (o + 4) 4))) =
    (p o).toNat + 256 * (p (o + 1)).toNat + 65536 * ((p (o + 2)).toNat + 256 * (p (o + 3)).toNat + 65536 * ule p (o + 4) 4)
  generalize ule p (o + 4) 4 = x
  omega

/-- A branch page cannot be taken for a list of free pages. -/
theorem entry_pages {t : Txn} (F : Fair B S t) (hb : Base B S env.file env.filePages) {oldest : Nat} {kv : Bytes × Bytes} (hrec : reclaimable oldest kv = true) {p : Page} {i : Nat}
    (f : Fine' B S t p) (hi : i < numKeys p) (e : leafNode p i = .ok kv) : kv.1.length = 8 ∧ ∃ a l, Has S t a ∧ (∀ n ∈ l, Has S t n) ∧ kv.2 = (a :: l).flatMap (le 8) := by
  unfold reclaimable at hrec
  simp only [Bool.and_eq_true, beq_iff_eq, decide_eq_true_eq] at hrec
  obtain ⟨⟨⟨h8, -⟩, hm⟩, hpos⟩ := hrec
  have hlen : i < (items p).length := by simpa using hi
  cases hl : isLeaf p with
  | true =>
    have hkv : (kvs p)[i]? = some (((items p)[i]).key, ((items p)[i]).val) := by
      unfold kvs; rw [List.getElem?_map, List.getElem?_eq_getElem hlen]; rfl
    rw [leafNode_spec f.wf hl hkv] at e
    have e := Res.ok.inj e
    have hmay := f.pairs hl _ (List.getElem_mem hlen)
    subst e
    simp only [] at h8 hm hpos ⊢
    unfold May at hmay
    rw [if_pos h8] at hmay
    obtain ⟨l, h1, h2⟩ := hmay
    cases l with
    | nil => rw [h2] at hpos; simp at hpos
    | cons a l => exact ⟨h8, a, l, h1 a List.mem_cons_self, fun n hn => h1 n (List.mem_cons_of_mem _ hn), h2⟩
  | false =>
    exfalso
    have hc := f.kids hl _ (List.getElem_mem hlen)
    have hlim := (F.bound hb hc).2
    rw [items_getElem, hl, lim_eq] at hlim
    have hu : (itemAt p false (slot p i)).child = u64 p (slot p i) := rfl
    rw [hu] at hlim
    unfold leafNode at e
    obtain ⟨o, e1, e⟩ := Res.bind_eq_ok.1 e
    obtain ⟨_, -, e⟩ := Res.bind_eq_ok.1 e
    obtain ⟨_, -, e⟩ := Res.bind_eq_ok.1 e
    have ho : slot p i = o := by
      unfold rdSlot at e1
      obtain ⟨_, -, e1⟩ := Res.bind_eq_ok.1 e1
      exact Res.ok.inj e1
    have e := Res.ok.inj e
    subst e
    simp only [slice_length, nodeDs, if_true] at hm hpos
    rw [ho] at hlim
    have h3 := u64_halves p o
    omega

/-! ### Allocation -/

theorem flatMap_drop (a : Nat) (l : List Nat) : ((a :: l).flatMap (le 8)).drop 8 = l.flatMap (le 8) := by
  rw [List.flatMap_cons, List.drop_left' (by simp)]

theorem flatMap_take (a : Nat) (l : List Nat) : ((a :: l).flatMap (le 8)).take 8 = le 8 a := by
  rw [List.flatMap_cons, List.take_left' (by simp)]

theorem may_list {t : Txn} {l : List Nat} (h : ∀ n ∈ l, Has S t n) {k : Bytes} (hk : k.length = 8) : May B (Has S t) k (l.flatMap (le 8)) := by
  unfold May; rw [if_pos hk]; exact ⟨l, h, rfl⟩

theorem reclaim_fair {al : Alloc} (ha : Gives B S env al) (hb : Base B S env.file env.filePages) {t : Txn} (F : Fair B S t) {fuel : Nat} {r : Option Nat × Txn}
    (e : reclaim al env fuel t = .ok r) (hN : r.2.newLast < lim) : Fair B S r.2 ∧ r.2.root = t.root ∧ ∀ n, r.1 = some n → 2 ≤ n ∧ n < lim := by
  unfold reclaim at e
  split at e
  · cases e; exact ⟨F, rfl, fun n h => by cases h⟩
  · rename_i hz
    have Ft : Fair B S { t with root := t.freeRoot } := F.reroot F.froot
    simp only [] at e
    obtain ⟨x, e1, e⟩ := Res.bind_eq_ok.1 e
    obtain ⟨y, e2, e⟩ := Res.bind_eq_ok.1 e
    cases y with
    | none => cases e; exact ⟨F, rfl, fun n h => by cases h⟩
    | some y =>
      obtain ⟨c, kv⟩ := y
      simp only [] at e
      obtain ⟨hrec, p, i, f, hi, hkv⟩ := findEntry_fair Ft hb (cursorGet_fair (op := .seek .first) (fun r hr => first_fair Ft hb hr) e1) e2
      obtain ⟨h8, a, l, hA, hL, hv⟩ := entry_pages Ft hb hrec f hi hkv
      obtain ⟨u, e3, e⟩ := Res.bind_eq_ok.1 e
      have hu : u.2.newLast < lim := by
        split at e <;> (cases e; exact hN)
      have key : Fair B S u.2 ∧ Has S u.2 t.root ∨ Fair B S u.2 ∧ t.root = 0 := by
        have main : Fair B S u.2 ∧ ∀ n, Has S t n → Has S u.2 n := by
          unfold updateEntry at e3
          split at e3
          · exact ⟨(del_fair hb Ft e3).1, fun n hn => del_inv (closed_has env S n) e3 hn⟩
          · obtain ⟨d, e4, e3⟩ := Res.bind_eq_ok.1 e3
            obtain ⟨Fd, rd⟩ := del_fair hb Ft e4
            have gd : ∀ n, Has S t n → Has S d.2 n := fun n hn => del_inv (closed_has env S n) e4 hn
            split at e3
            · refine ⟨?_, fun n hn => putRest_inv (closed_has env S n) (ha.mono.has S n) e3 (gd n hn)⟩
              have hdrop : kv.2.drop 8 = l.flatMap (le 8) := by rw [hv, flatMap_drop]
              have hmay : ∀ k : Bytes, k.length = 8 → May B (Has S d.2) k (kv.2.drop 8) := fun k hk => by
                rw [hdrop]; exact may_list (fun n hn => gd n (hL n hn)) hk
              unfold putRest at e3
              obtain ⟨hm, e5, e3⟩ := Res.bind_eq_ok.1 e3
              split at e3
              · exact putWith_fair ha hb Fd (hmay _ h8) e3 hu
              · obtain ⟨q, e6, e3⟩ := Res.bind_eq_ok.1 e3
                exact putThrough_fair ha hb Fd (by rw [rd]; exact hz) (by rw [slice_length, h8]) hmay e3 hu
            · cases e3; exact ⟨Fd, gd⟩
        rcases F.root with h0 | h0
        · exact .inr ⟨main.1, h0⟩
        · exact .inl ⟨main.1, main.2 _ h0⟩
      have Fu : Fair B S { u.2 with root := t.root } := by
        rcases key with ⟨h1, h2⟩ | ⟨h1, h2⟩
        · exact h1.reroot (.inr h2)
        · exact h1.reroot (.inl h2)
      split at e
      · cases e
        refine ⟨Fu, rfl, fun n hn => ?_⟩
        have := F.bound hb hA
        cases hn
        rw [hv, flatMap_take, leVal_le, Nat.mod_eq_of_lt (by have := this.2; rw [lim_eq] at this; omega)]
        exact this
      · cases e; exact ⟨Fu, rfl, fun n h => by cases h⟩

theorem gives_alloc (hb : Base B S env.file env.filePages) (fuel : Nat) : Gives B S env (alloc env fuel) := by
  induction fuel with
  | zero => exact ⟨mono_alloc env 0, fun t r _ e => by cases e⟩
  | succ fuel ih =>
    refine ⟨mono_alloc env (fuel + 1), fun t r F e hN => ?_⟩
    rw [alloc] at e
    obtain ⟨x, e1, e⟩ := Res.bind_eq_ok.1 e
    obtain ⟨o, t1⟩ := x
    cases o with
    | some n =>
      cases e
      obtain ⟨F', hr, h⟩ := reclaim_fair ih hb F e1 hN
      exact ⟨F', (h n rfl).1, (h n rfl).2, hr⟩
    | none =>
      cases e
      have hlast : t1.newLast + 1 < lim := hN
      obtain ⟨F', hr, -⟩ := reclaim_fair ih hb F e1 (show t1.newLast < lim by omega)
      have := F'.low
      exact ⟨F'.grow, by show 2 ≤ t1.newLast + 1; simp only [] at this; omega, hlast, hr⟩

end Verif.Db.Honest
