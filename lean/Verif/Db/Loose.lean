import Verif.Db.Props
import Verif.Page.Damage

/-!
# Helper lemmas: what no history of puts and deletions breaks

Splits can leave a tree whose keys are out of order, whose pages are entered twice and whose branch pages are empty.  What remains, whatever
the history: every page has a height; the children of a page are one lower; the leaves hold only pairs that were there or were put.
-/

namespace Verif.Db

open Verif.Page

/-- A page that may stand at height `h`, when the pages with a height are those in `lv` and the pairs that may occur are those in `A`. -/
structure Good (A : Bytes → Bytes → Prop) (lv : Nat → Option Nat) (h : Nat) (p : Page) : Prop where
  wf : WF p
  kind : isLeaf p = (h == 0)
  pairs : h = 0 → ∀ it ∈ items p, A it.key it.val
  kids : ∀ k, h = k + 1 → ∀ it ∈ items p, lv it.child = some k

/-- Every page with a height is there and fits its height. -/
structure Loose (env : Env) (A : Bytes → Bytes → Prop) (t : Txn) (lv : Nat → Option Nat) : Prop where
  rdonly : t.rdonly = false
  free : t.freeRoot = 0
  page : ∀ n h, lv n = some h → ∃ p, getPage env t n = .ok p ∧ pgno p = n ∧ Good A lv h p
  bound : ∀ n h, lv n = some h → 0 < n ∧ n ≤ t.newLast

/-- Heights are only added. -/
def Grows (lv lv' : Nat → Option Nat) : Prop := ∀ n h, lv n = some h → lv' n = some h

theorem Grows.trans {a b c : Nat → Option Nat} (h : Grows a b) (h' : Grows b c) : Grows a c := fun n k e => h' n k (h n k e)

theorem Good.mono {A : Bytes → Bytes → Prop} {lv lv' : Nat → Option Nat} {h : Nat} {p : Page} (g : Good A lv h p) (hg : Grows lv lv') :
    Good A lv' h p := ⟨g.wf, g.kind, g.pairs, fun k hk it hi => hg _ _ (g.kids k hk it hi)⟩

theorem Loose.set {env : Env} {A : Bytes → Bytes → Prop} {t : Txn} {lv : Nat → Option Nat} (L : Loose env A t lv) {n h : Nat} {p : Page}
    (hn : lv n = some h) (hp : pgno p = n) (g : Good A lv h p) : Loose env A (t.setDirty n p) lv := by
  refine ⟨L.rdonly, L.free, fun m k hm => ?_, L.bound⟩
  rw [getPage_set L.rdonly]
  by_cases e : m = n
  · subst e
    rw [hn] at hm; cases hm
    exact ⟨p, by rw [if_pos rfl], hp, g⟩
  · rw [if_neg e]; exact L.page m k hm

theorem Loose.grow {env : Env} {A : Bytes → Bytes → Prop} {t : Txn} {lv : Nat → Option Nat} (L : Loose env A t lv) :
    Loose env A (extend t).2 lv :=
  ⟨L.rdonly, L.free, L.page, fun n h hn => ⟨(L.bound n h hn).1, Nat.le_succ_of_le (L.bound n h hn).2⟩⟩

theorem Loose.fresh {env : Env} {A : Bytes → Bytes → Prop} {t : Txn} {lv : Nat → Option Nat} (L : Loose env A t lv) : lv (t.newLast + 1) = none := by
  cases h : lv (t.newLast + 1) with
  | none => rfl
  | some k => have := (L.bound _ _ h).2; omega

/-- One more page with a height. -/
def addLv (lv : Nat → Option Nat) (n h : Nat) : Nat → Option Nat := fun m => if m = n then some h else lv m

theorem addLv_grows {lv : Nat → Option Nat} {n : Nat} (h : Nat) (hn : lv n = none) : Grows lv (addLv lv n h) := by
  intro m k hm
  unfold addLv
  rw [if_neg (by rintro rfl; rw [hn] at hm; cases hm)]; exact hm

theorem Loose.add {env : Env} {A : Bytes → Bytes → Prop} {t : Txn} {lv : Nat → Option Nat} (L : Loose env A t lv) {n h : Nat} {p : Page}
    (hn : lv n = none) (h0 : 0 < n) (hle : n ≤ t.newLast) (hp : pgno p = n) (g : Good A lv h p) : Loose env A (t.setDirty n p) (addLv lv n h) := by
  have hg := addLv_grows h hn
  refine ⟨L.rdonly, L.free, fun m k hm => ?_, fun m k hm => ?_⟩
  · rw [getPage_set L.rdonly]
    unfold addLv at hm
    by_cases e : m = n
    · rw [if_pos e] at hm; cases hm
      exact ⟨p, by rw [if_pos e], by rw [e]; exact hp, g.mono hg⟩
    · rw [if_neg e] at hm ⊢
      obtain ⟨q, h1, h2, h3⟩ := L.page m k hm
      exact ⟨q, h1, h2, h3.mono hg⟩
  · unfold addLv at hm
    by_cases e : m = n
    · subst e; exact ⟨h0, hle⟩
    · rw [if_neg e] at hm; exact L.bound m k hm

theorem Loose.same {env : Env} {A : Bytes → Bytes → Prop} {t t' : Txn} {lv : Nat → Option Nat} (L : Loose env A t lv) (s : Same env t t') :
    Loose env A t' lv :=
  ⟨s.rdonly.trans L.rdonly, s.freeRoot.trans L.free, fun n h hn => by rw [s.view]; exact L.page n h hn, fun n h hn => by rw [s.newLast]; exact L.bound n h hn⟩

/-! ### Pages -/

theorem keyAt_items {p : Page} {i : Nat} (hi : i < numKeys p) :
    keyAt p (isLeaf p) i = ((items p)[i]'(by simpa using hi)).key := by
  rw [items_getElem]
  unfold keyAt itemAt
  cases isLeaf p <;> simp [Item.key, slot, hdrSize]

theorem leaf_branch {p : Page} (wf : WF p) : (!isBranch p) = isLeaf p := by
  rcases wf.kind with hk | hk
  · rw [(kind_branch hk).1, (kind_branch hk).2]; rfl
  · rw [(kind_leaf hk).1, (kind_leaf hk).2]; rfl

/-- A search of a well-formed page, sorted or not. -/
theorem probe_any {p : Page} (wf : WF p) {key : Bytes} {f : Found} (h : probe p key = .ok f) :
    f.idx ≤ numKeys p ∧ ∀ i, f = .found i → ∃ hi : i < numKeys p, ((items p)[i]'(by simpa using hi)).key = key.take (key.length % 65536) := by
  have hk : (key.take (key.length % 65536)).length < 65536 := by
    rw [List.length_take]; have := Nat.mod_lt key.length (show 65536 > 0 by decide); omega
  unfold probe at h
  rw [oversized_key_is_truncated] at h
  rcases (search_any p (key.take (key.length % 65536)) hk).1 with ⟨-, e⟩ | ⟨r, e, h1, h2⟩ | ⟨e, -⟩
  · rw [e] at h; cases h; exact ⟨Nat.zero_le _, fun i hi => by cases hi⟩
  · rw [e] at h; cases h
    refine ⟨h1, fun i hi => ?_⟩
    obtain ⟨a, b⟩ := h2 i hi
    rw [leaf_branch wf, keyAt_items a] at b
    exact ⟨a, b⟩
  · rw [e] at h; cases h

/-- An entry that may go into a page of height `h`. -/
structure Suits (A : Bytes → Bytes → Prop) (lv : Nat → Option Nat) (h : Nat) (it : Item) : Prop where
  kind : it.hasData = (h == 0)
  small : it.child < 2 ^ 64
  pair : h = 0 → A it.key it.val
  kid : ∀ k, h = k + 1 → lv it.child = some k

theorem insert_good {A : Bytes → Bytes → Prop} {lv : Nat → Option Nat} {h : Nat} {p : Page} (g : Good A lv h p) {i : Nat} (hi : i ≤ numKeys p)
    {it : Item} (hs : Suits A lv h it) {r : St × Page} (e : insert p i it = .ok r) :
    Good A lv h r.2 ∧ pgno r.2 = pgno p ∧ (r.1 = .ok → items r.2 = (items p).insertIdx i it) := by
  have hk : it.hasData = isLeaf p := hs.kind.trans g.kind.symm
  by_cases hsz : it.size < 65536
  · obtain ⟨h1, h2⟩ := insert_keeps_entries_partial g.wf hi hk hsz hs.small
    by_cases hr : room p < it.size + 2
    · rw [h1 hr] at e; cases e; exact ⟨g, rfl, fun h => by cases h⟩
    · obtain ⟨q, e', wf, hit, hno, hfl, -⟩ := h2 (by omega)
      rw [e'] at e; cases e
      refine ⟨⟨wf, (isLeaf_congr hfl).trans g.kind, fun h0 x hx => ?_, fun k hk' x hx => ?_⟩, hno, fun _ => hit⟩
      · rw [hit] at hx
        rcases (List.mem_insertIdx (by rw [items_length]; exact hi)).1 hx with rfl | hx
        · exact hs.pair h0
        · exact g.pairs h0 x hx
      · rw [hit] at hx
        rcases (List.mem_insertIdx (by rw [items_length]; exact hi)).1 hx with rfl | hx
        · exact hs.kid k hk'
        · exact g.kids k hk' x hx
  · by_cases hr : room p < it.size % 65536 + 2
    · rw [insert_nospc g.wf hk hr] at e; cases e; exact ⟨g, rfl, fun h => by cases h⟩
    · rw [oversized_insert_undefined g.wf hi hk (by omega) (by omega)] at e; cases e

theorem delete_good {A : Bytes → Bytes → Prop} {lv : Nat → Option Nat} {h : Nat} {p : Page} (g : Good A lv h p) {i : Nat}
    {r : St × Page} (e : delete p i = .ok r) : Good A lv h r.2 ∧ pgno r.2 = pgno p := by
  by_cases hi : i < numKeys p
  · obtain ⟨q, e', wf, hit, hno, hfl, -⟩ := delete_removes_exactly_one g.wf hi
    rw [e'] at e; cases e
    exact ⟨⟨wf, (isLeaf_congr hfl).trans g.kind, fun h0 x hx => g.pairs h0 x (by rw [hit] at hx; exact List.mem_of_mem_eraseIdx hx),
      fun k hk x hx => g.kids k hk x (by rw [hit] at hx; exact List.mem_of_mem_eraseIdx hx)⟩, hno⟩
  · rw [delete_invalid_position (by omega)] at e; cases e; exact ⟨g, rfl⟩

theorem Good.sub {A : Bytes → Bytes → Prop} {lv : Nat → Option Nat} {h : Nat} {p q : Page} (g : Good A lv h p) (wf : WF q) (hl : isLeaf q = isLeaf p)
    (hs : ∀ it ∈ items q, it ∈ items p) : Good A lv h q :=
  ⟨wf, hl.trans g.kind, fun h0 x hx => g.pairs h0 x (hs x hx), fun k hk x hx => g.kids k hk x (hs x hx)⟩

theorem empty_good {A : Bytes → Bytes → Prop} {lv : Nat → Option Nat} {h no : Nat} (hno : no < 2 ^ 64) : Good A lv h (emptyPage (h == 0) no) := by
  have hf := emptyPage_fields (h == 0) no hno
  refine ⟨emptyPage_wf _ _ hno, ?_, fun _ x hx => ?_, fun _ _ x hx => ?_⟩
  · cases hb : (h == 0) with
    | true => exact (kind_leaf (by rw [← hb, hf.1, hb]; rfl)).1
    | false => exact (kind_branch (by rw [← hb, hf.1, hb]; rfl)).1
  · rw [emptyPage_items _ _ hno] at hx; cases hx
  · rw [emptyPage_items _ _ hno] at hx; cases hx

theorem split_good {A : Bytes → Bytes → Prop} {lv : Nat → Option Nat} {h : Nat} {p : Page} (g : Good A lv h p) {no : Nat} (hno : no < 2 ^ 64)
    {o : Option Split} (e : (if (h == 0) then splitLeaf p no else splitBranch p no) = .ok o) {s : Split} (ho : o = some s) :
    Good A lv h s.left ∧ Good A lv h s.right ∧ pgno s.left = pgno p ∧ pgno s.right = no := by
  subst ho
  rw [← g.kind] at e
  by_cases h0 : 0 < numKeys p
  · obtain ⟨s', e', w1, w2, l1, l2, n1, n2, i1, i2, -⟩ := split_any g.wf h0 hno
    rw [e'] at e; cases e
    exact ⟨g.sub w1 l1 (fun x hx => by rw [i1] at hx; exact List.mem_of_mem_take hx), g.sub w2 l2 (fun x hx => by rw [i2] at hx; exact List.mem_of_mem_drop hx), n1, n2⟩
  · have hz : numKeys p = 0 := by omega
    cases hl : isLeaf p with
    | true =>
      rw [hl, if_pos rfl] at e
      unfold splitLeaf at e
      rw [hl] at e
      simp only [Bool.not_true, Bool.false_eq_true, if_false, hz] at e
      obtain ⟨r, e1, e⟩ := Res.bind_eq_ok.1 e
      obtain ⟨l, e2, e⟩ := Res.bind_eq_ok.1 e
      obtain ⟨d, e3, e⟩ := Res.bind_eq_ok.1 e
      obtain ⟨l', e4, wf, hfl, hno', hit, -⟩ := shrink_spec g.wf (sp := 0) (Nat.zero_le _)
      rw [e4] at e2; cases e2
      cases e
      have hr : r = emptyPage true no := by
        simp [moveNodes] at e1; exact e1.symm
      have hh : (h == 0) = true := g.kind ▸ hl
      refine ⟨g.sub wf (isLeaf_congr hfl) (fun x hx => by rw [hit] at hx; cases hx), ?_, hno', ?_⟩
      · show Good A lv h r
        rw [hr, ← hh]; exact empty_good hno
      · show pgno r = no
        rw [hr]; exact (emptyPage_fields true no hno).2.2.2.2
    | false =>
      rw [hl, if_neg (by simp)] at e
      unfold splitBranch at e
      simp only [g.wf.not_leaf hl, Bool.not_true, Bool.false_eq_true, if_false, hz] at e
      obtain ⟨r, e1, e⟩ := Res.bind_eq_ok.1 e
      obtain ⟨l, e2, e⟩ := Res.bind_eq_ok.1 e
      have hr : r = emptyPage false no := by
        simp [moveNodes] at e1; exact e1.symm
      rw [hr, if_pos (emptyPage_fields false no hno).2.1] at e
      cases e

/-! ### Splits -/

/-- The allocator extends the file. -/
def Extends (al : Alloc) : Prop := ∀ t, t.freeRoot = 0 → al t = .ok (extend t)

theorem splitTxn_good {al : Alloc} (hal : Extends al) {env : Env} {A : Bytes → Bytes → Prop} {t : Txn} {lv : Nat → Option Nat} (L : Loose env A t lv)
    {lk h : Nat} (hlk : lv lk = some h) (h64 : t.newLast + 1 < 2 ^ 64) {r : Txn × Except Status SplitTxn} (e : splitTxn al (h == 0) t lk = .ok r) :
    r.1.newLast ≤ t.newLast + 1 ∧ r.1.root = t.root ∧
    ((∃ x, r.2 = .error x ∧ x ≠ .success) ∧ Loose env A r.1 lv ∨
     ∃ s, r.2 = .ok s ∧ s.no = t.newLast + 1 ∧ Loose env A r.1 (addLv lv s.no h) ∧ Good A lv h s.left ∧ Good A lv h s.right ∧
       pgno s.left = lk ∧ pgno s.right = s.no) := by
  unfold splitTxn at e
  obtain ⟨p, e1, e⟩ := Res.bind_eq_ok.1 e
  cases hd : t.getDirty lk with
  | none => rw [hd] at e1; cases e1
  | some q =>
  rw [hd, Res.ofOption_some] at e1; cases e1
  obtain ⟨p', hp, hpn, g⟩ := L.page lk h hlk
  rw [getPage_dirty L.rdonly hd] at hp; cases hp
  have hk : (if (h == 0) = true then isLeaf p else isBranch p) = true := by rw [← g.kind]; exact ite_kind g.wf
  rw [hk, if_neg (by simp)] at e
  · obtain ⟨a, e2, e⟩ := Res.bind_eq_ok.1 e
    rw [hal t L.free] at e2; cases e2
    have hd' : (extend t).2.getDirty lk = some p := hd
    simp only [hd', Res.ofOption_some, Res.ok_bind] at e
    obtain ⟨o, e3, e⟩ := Res.bind_eq_ok.1 e
    cases o with
    | none => cases e; exact ⟨Nat.le_refl _, rfl, .inl ⟨⟨_, rfl, by simp⟩, L.grow⟩⟩
    | some s =>
      obtain ⟨g1, g2, n1, n2⟩ := split_good g h64 e3 rfl
      cases e
      refine ⟨Nat.le_refl _, rfl, .inr ⟨_, rfl, rfl, ?_, g1, g2, n1.trans hpn, n2⟩⟩
      exact (L.grow.set hlk (n1.trans hpn) g1).add L.fresh (Nat.succ_pos _) (Nat.le_refl _) n2 g2

theorem insertHalf_good {env : Env} {A : Bytes → Bytes → Prop} {t : Txn} {lv : Nat → Option Nat} (L : Loose env A t lv) {lk h : Nat} {s : SplitTxn}
    (hlk : lv lk = some h) (hno : lv s.no = some h) (hl : pgno s.left = lk) (hr : pgno s.right = s.no) (gl : Good A lv h s.left) (gr : Good A lv h s.right)
    {it : Item} (hs : Suits A lv h it) {r : Status × Txn} (e : insertHalf t lk s it = .ok r) :
    Loose env A r.2 lv ∧ r.2.newLast = t.newLast ∧ r.2.root = t.root := by
  unfold insertHalf at e
  obtain ⟨f, e1, e⟩ := Res.bind_eq_ok.1 e
  split at e
  · obtain ⟨f', e2, e⟩ := Res.bind_eq_ok.1 e
    obtain ⟨q, e3, e⟩ := Res.bind_eq_ok.1 e
    cases e
    obtain ⟨g, n, -⟩ := insert_good gr (probe_any gr.wf e2).1 hs e3
    exact ⟨L.set hno (n.trans hr) g, rfl, rfl⟩
  · obtain ⟨q, e3, e⟩ := Res.bind_eq_ok.1 e
    obtain ⟨g, n, -⟩ := insert_good gl (probe_any gl.wf e1).1 hs e3
    simp only [Res.ok.injEq] at e
    subst e
    by_cases hx : s.no = lk
    · rw [if_pos hx]; exact ⟨L, rfl, rfl⟩
    · rw [if_neg hx]; exact ⟨L.set hlk (n.trans hl) g, rfl, rfl⟩

/-- Page numbers from the page of height `j + 1` upwards. -/
def Rising (lv : Nat → Option Nat) : Nat → List Nat → Prop
  | _, [] => True
  | j, n :: r => lv n = some (j + 1) ∧ Rising lv (j + 1) r

theorem Rising.mono {lv lv' : Nat → Option Nat} (hg : Grows lv lv') : ∀ {l : List Nat} {j : Nat}, Rising lv j l → Rising lv' j l
  | [], _, _ => trivial
  | _ :: _, _, h => ⟨hg _ _ h.1, Rising.mono hg h.2⟩

theorem propagate_good {al : Alloc} (hal : Extends al) {env : Env} {A : Bytes → Bytes → Prop} : ∀ (l : List Nat) {j : Nat} {t : Txn} {lv : Nat → Option Nat}
    {k : Bytes} {c : Nat} {r : Txn × Status × Bytes × Nat}, Loose env A t lv → Rising lv j l → lv c = some j → t.newLast + l.length < 2 ^ 64 →
    propagate al l t k c = .ok r →
    ∃ lv', Grows lv lv' ∧ Loose env A r.1 lv' ∧ r.1.newLast ≤ t.newLast + l.length ∧ r.1.root = t.root ∧
      (r.2.1 = .success → lv' r.2.2.2 = some (j + l.length)) := by
  intro l
  induction l with
  | nil =>
    intro j t lv k c r L _ hc _ e
    cases e
    exact ⟨lv, fun _ _ h => h, L, Nat.le_refl _, rfl, fun _ => hc⟩
  | cons n l ih =>
    intro j t lv k c r L hu hc h64 e
    rw [List.length_cons] at h64
    rw [propagate] at e
    cases hd : t.getDirty n with
    | none => rw [hd] at e; cases e; exact ⟨lv, fun _ _ h => h, L, Nat.le_add_right _ _, rfl, fun h => by cases h⟩
    | some p =>
      rw [hd] at e
      simp only [] at e
      obtain ⟨p', hp, hpn, g⟩ := L.page n _ hu.1
      rw [getPage_dirty L.rdonly hd] at hp; cases hp
      have hsuit : ∀ {lv'}, Grows lv lv' → Suits A lv' (j + 1) (.branch k c) := fun hg =>
        ⟨rfl, by show c < 2 ^ 64; have := (L.bound c j hc).2; omega, (fun h => absurd h (by omega)), (fun i hi => by cases hi; exact hg _ _ hc)⟩
      obtain ⟨f, e1, e⟩ := Res.bind_eq_ok.1 e
      obtain ⟨q, e2, e⟩ := Res.bind_eq_ok.1 e
      obtain ⟨gq, nq, -⟩ := insert_good g (probe_any g.wf e1).1 (hsuit (fun _ _ h => h)) e2
      split at e
      · cases e
        exact ⟨lv, fun _ _ h => h, L.set hu.1 (nq.trans hpn) gq, Nat.le_add_right _ _, rfl, fun h => by cases h⟩
      · cases e
        exact ⟨lv, fun _ _ h => h, L, Nat.le_add_right _ _, rfl, fun h => by cases h⟩
      · obtain ⟨sp, e3, e⟩ := Res.bind_eq_ok.1 e
        obtain ⟨b1, b2, b3⟩ := splitTxn_good hal (h := j + 1) L hu.1 (by omega) e3
        rcases b3 with ⟨⟨x, hx, hxs⟩, L'⟩ | ⟨s, hs, hno, L', gl, gr, nl, nr⟩
        · rw [hx] at e; cases e
          exact ⟨lv, fun _ _ h => h, L', by rw [List.length_cons]; simp only []; omega, b2, fun h => absurd h hxs⟩
        · rw [hs] at e
          simp only [] at e
          have hg : Grows lv (addLv lv s.no (j + 1)) := addLv_grows _ (by rw [hno]; exact L.fresh)
          have hsn : addLv lv s.no (j + 1) s.no = some (j + 1) := by unfold addLv; rw [if_pos rfl]
          obtain ⟨hh, e4, e⟩ := Res.bind_eq_ok.1 e
          obtain ⟨c1, c2, c3⟩ := insertHalf_good L' (hg _ _ hu.1) hsn nl nr (gl.mono hg) (gr.mono hg) (hsuit hg) e4
          split at e
          · obtain ⟨lv', d1, d2, d3, d4, d5⟩ := ih (j := j + 1) c1 (hu.2.mono hg) hsn (by omega) e
            refine ⟨lv', hg.trans d1, d2, by rw [List.length_cons]; omega, d4.trans (c3.trans b2), fun h => ?_⟩
            rw [d5 h, List.length_cons]; congr 1; omega
          · rename_i hne
            cases e
            exact ⟨_, hg, c1, by rw [List.length_cons]; simp only []; omega, c3.trans b2, fun h => absurd h hne⟩

theorem rootSplit_good {al : Alloc} (hal : Extends al) {env : Env} {A : Bytes → Bytes → Prop} {t : Txn} {lv : Nat → Option Nat} (L : Loose env A t lv)
    {old right h : Nat} {d : Bytes} (ho : lv old = some h) (hr : lv right = some h) (h64 : t.newLast + 1 < 2 ^ 64) {r : Txn × Except Status Nat}
    (e : rootSplit al t old right d = .ok r) :
    ∃ lv', Grows lv lv' ∧ Loose env A r.1 lv' ∧ r.1.newLast ≤ t.newLast + 1 ∧ r.1.root = t.root ∧ ∀ n, r.2 = .ok n → lv' n = some (h + 1) := by
  unfold rootSplit at e
  rw [hal t L.free, Res.ok_bind] at e
  simp only [] at e
  split at e
  · cases e; exact ⟨lv, fun _ _ h => h, L.grow, Nat.le_refl _, rfl, fun n h => by cases h⟩
  · obtain ⟨k, e1, e⟩ := Res.bind_eq_ok.1 e
    obtain ⟨q, e2, e⟩ := Res.bind_eq_ok.1 e
    have hsuit : ∀ {k x}, lv x = some h → Suits A lv (h + 1) (.branch k x) := fun {k x} hx =>
      ⟨rfl, by show x < 2 ^ 64; have := (L.bound _ _ hx).2; omega, (fun h => absurd h (by omega)), (fun i hi => by cases hi; exact hx)⟩
    have hf := emptyPage_fields false (t.newLast + 1) h64
    obtain ⟨g1, n1, i1⟩ := insert_good (empty_good (h := h + 1) h64) (Nat.zero_le _) (hsuit ho) e2
    have hfail : ∀ x, (∃ lv', Grows lv lv' ∧ Loose env A (extend t).2 lv' ∧ (extend t).2.newLast ≤ t.newLast + 1 ∧ (extend t).2.root = t.root ∧
        ∀ n, (Except.error x : Except Status Nat) = .ok n → lv' n = some (h + 1)) :=
      fun x => ⟨lv, fun _ _ h => h, L.grow, Nat.le_refl _, rfl, fun n h => by cases h⟩
    split at e
    · rename_i hok
      obtain ⟨q2, e3, e⟩ := Res.bind_eq_ok.1 e
      have hnk : 1 ≤ numKeys q.2 := by
        rw [← items_length, i1 hok, emptyPage_items _ _ h64]; simp
      obtain ⟨g2, n2, -⟩ := insert_good g1 hnk (hsuit hr) e3
      split at e
      · cases e
        refine ⟨_, addLv_grows (h + 1) L.fresh, L.grow.add L.fresh (Nat.succ_pos _) (Nat.le_refl _) (n2.trans (n1.trans hf.2.2.2.2)) g2, Nat.le_refl _, rfl, fun n hn => ?_⟩
        cases hn
        show addLv lv (t.newLast + 1) (h + 1) (t.newLast + 1) = _
        unfold addLv; rw [if_pos rfl]
      · cases e; exact hfail _
    · cases e; exact hfail _

/-! ### The way down -/

/-- The pages on the way from a page of height `h` to a leaf. -/
def Down (lv : Nat → Option Nat) : Nat → List Nat → Prop
  | 0, l => ∃ n, l = [n] ∧ lv n = some 0
  | h + 1, l => ∃ n r, l = n :: r ∧ lv n = some (h + 1) ∧ Down lv h r

theorem Down.ne {lv : Nat → Option Nat} : ∀ {h : Nat} {l : List Nat}, Down lv h l → l ≠ []
  | 0, _, h => by obtain ⟨n, rfl, -⟩ := h; simp
  | _ + 1, _, h => by obtain ⟨n, r, rfl, -⟩ := h; simp

theorem Down.length {lv : Nat → Option Nat} : ∀ {h : Nat} {l : List Nat}, Down lv h l → l.length = h + 1
  | 0, _, h => by obtain ⟨n, rfl, -⟩ := h; rfl
  | _ + 1, _, h => by obtain ⟨n, r, rfl, -, h⟩ := h; rw [List.length_cons, h.length]

theorem Down.mem {lv : Nat → Option Nat} : ∀ {h : Nat} {l : List Nat}, Down lv h l → ∀ n ∈ l, ∃ k, lv n = some k
  | 0, _, h, m, hm => by obtain ⟨n, rfl, h⟩ := h; rw [List.mem_singleton] at hm; subst hm; exact ⟨_, h⟩
  | _ + 1, _, h, m, hm => by
    obtain ⟨n, r, rfl, h1, h⟩ := h
    rcases List.mem_cons.1 hm with rfl | hm
    · exact ⟨_, h1⟩
    · exact h.mem m hm

theorem Down.last {lv : Nat → Option Nat} : ∀ {h : Nat} {l : List Nat}, Down lv h l → lv (l.getLastD 0) = some 0
  | 0, _, h => by obtain ⟨n, rfl, h⟩ := h; exact h
  | _ + 1, _, h => by
    obtain ⟨n, r, rfl, -, h⟩ := h
    have := h.last
    cases r with
    | nil => exact absurd rfl h.ne
    | cons a r => simpa [List.getLastD] using this

theorem Rising.snoc {lv : Nat → Option Nat} : ∀ {l : List Nat} {j n : Nat}, Rising lv j l → lv n = some (j + l.length + 1) → Rising lv j (l ++ [n])
  | [], _, _, _, h => ⟨by simpa using h, trivial⟩
  | _ :: l, j, _, hu, h => ⟨hu.1, hu.2.snoc (by rw [h, List.length_cons]; congr 1; omega)⟩

theorem Down.up {lv : Nat → Option Nat} : ∀ {h : Nat} {l : List Nat}, Down lv h l → Rising lv 0 l.dropLast.reverse
  | 0, _, h => by obtain ⟨n, rfl, -⟩ := h; exact trivial
  | h + 1, _, hd => by
    obtain ⟨n, r, rfl, h1, hd⟩ := hd
    rw [List.dropLast_cons_of_ne_nil hd.ne, List.reverse_cons]
    refine hd.up.snoc ?_
    rw [h1, List.length_reverse, List.length_dropLast, hd.length]; congr 1; omega

theorem child_mem {p : Page} (wf : WF p) (hl : isLeaf p = false) {i c : Nat} (hi : i < numKeys p) (h : child p i = .ok c) : ∃ it ∈ items p, it.child = c := by
  have hlen : i < (items p).length := by simpa using hi
  have hsplit : entries p = ((entries p).take i) ++ (((items p)[i]).key, ((items p)[i]).child) :: (entries p).drop (i + 1) := by
    have hi' : i < (entries p).length := by simpa [entries] using hi
    have : (entries p)[i] = (((items p)[i]).key, ((items p)[i]).child) := by simp [entries]
    rw [← this, List.getElem_cons_drop, List.take_append_drop]
  have hs := child_spec wf hl hsplit
  rw [List.length_take, show min i (entries p).length = i by simp [entries]; omega, h] at hs
  cases hs
  exact ⟨_, List.getElem_mem hlen, rfl⟩

theorem child_empty (p : Page) : child p 65535 = .ub := rfl

theorem childIdx_any {p : Page} (wf : WF p) {key : Bytes} {i : Nat} (h : childIdx p key = .ok i) : i < numKeys p ∨ numKeys p = 0 ∧ i = 65535 := by
  unfold childIdx at h
  obtain ⟨f, h1, h⟩ := Res.bind_eq_ok.1 h
  simp only [Res.ok.injEq] at h
  have hn : numKeys p < 65536 := u16_lt _ _
  by_cases hz : numKeys p = 0
  · right; refine ⟨hz, ?_⟩
    rw [← h, if_pos (by omega), hz]
  · left
    rw [← h]
    have hx : ∀ x, (if numKeys p ≤ x then (numKeys p + 65535) % 65536 else x) < numKeys p := by
      intro x; split <;> omega
    exact hx _

theorem step_down {env : Env} {A : Bytes → Bytes → Prop} {t : Txn} {lv : Nat → Option Nat} (L : Loose env A t lv) {n h : Nat} (hn : lv n = some (h + 1)) {p : Page}
    (hp : getPage env t n = .ok p) {key : Bytes} {i c : Nat} (h1 : childIdx p key = .ok i) (h2 : child p i = .ok c) : lv c = some h := by
  obtain ⟨q, hq, -, g⟩ := L.page _ _ hn
  rw [hp] at hq; cases hq
  rcases childIdx_any g.wf h1 with hi | ⟨-, rfl⟩
  · obtain ⟨it, hm, rfl⟩ := child_mem g.wf (by rw [g.kind]; rfl) hi h2
    exact g.kids h rfl it hm
  · rw [child_empty] at h2; cases h2

theorem findPath_good {env : Env} {A : Bytes → Bytes → Prop} {t : Txn} {lv : Nat → Option Nat} (L : Loose env A t lv) {key : Bytes} : ∀ {d n h : Nat} {path : List Nat},
    lv n = some h → findPath env t key d n = .ok (.ok path) → Down lv h path ∧ path.headD 0 = n ∧ path.length ≤ d := by
  intro d
  induction d with
  | zero => intro n h path _ e; cases e
  | succ d ih =>
    intro n h path hn e
    rw [findPath] at e
    split at e
    · cases e
    · obtain ⟨p, hp, -, g⟩ := L.page _ _ hn
      rw [hp, Res.ok_bind] at e
      cases h with
      | zero =>
        rw [g.kind] at e
        cases e
        exact ⟨⟨n, rfl, hn⟩, rfl, by simp⟩
      | succ h =>
        have hl : isLeaf p = false := by rw [g.kind]; rfl
        rw [hl, g.wf.not_leaf hl] at e
        simp only [Bool.false_eq_true, if_false, Bool.not_true] at e
        obtain ⟨i, e1, e⟩ := Res.bind_eq_ok.1 e
        obtain ⟨c, e2, e⟩ := Res.bind_eq_ok.1 e
        obtain ⟨x, e3, e⟩ := Res.bind_eq_ok.1 e
        cases x with
        | error _ => cases e
        | ok r =>
          cases e
          obtain ⟨a1, a2, a3⟩ := ih (step_down L hn hp e1 e2) e3
          exact ⟨⟨n, r, rfl, hn, a1⟩, rfl, by rw [List.length_cons]; omega⟩

/-! ### Puts and deletions -/

/-- What every history keeps: the pages of the tree have heights. -/
def Sane (env : Env) (A : Bytes → Bytes → Prop) (t : Txn) : Prop := ∃ lv h, Loose env A t lv ∧ (t.root ≠ 0 → lv t.root = some h)

theorem pageSplit_good {al : Alloc} (hal : Extends al) {env : Env} {A : Bytes → Bytes → Prop} {t : Txn} {lv : Nat → Option Nat} (L : Loose env A t lv)
    {path : List Nat} {h : Nat} (hd : Down lv h path) (hroot : lv (path.headD 0) = some h) {key val : Bytes} (hA : A key val) (h64 : t.newLast + path.length + 1 < 2 ^ 64)
    {r : Txn × Except Status Nat} (e : pageSplit al t (path.getLastD 0) path key val = .ok r) :
    ∃ lv', Grows lv lv' ∧ Loose env A r.1 lv' ∧ r.1.newLast ≤ t.newLast + path.length + 1 ∧ r.1.root = t.root ∧ ∀ n, r.2 = .ok n → ∃ h', lv' n = some h' := by
  unfold pageSplit at e
  obtain ⟨sp, e1, e⟩ := Res.bind_eq_ok.1 e
  obtain ⟨b1, b2, b3⟩ := splitTxn_good hal (h := 0) L hd.last (by omega) e1
  have hlen := hd.length
  rcases b3 with ⟨⟨x, hx, hxs⟩, L'⟩ | ⟨s, hs, hno, L', gl, gr, nl, nr⟩
  · rw [hx] at e; cases e
    exact ⟨lv, fun _ _ h => h, L', by simp only []; omega, b2, fun n h => by cases h⟩
  · rw [hs] at e
    simp only [] at e
    have hg : Grows lv (addLv lv s.no 0) := addLv_grows _ (by rw [hno]; exact L.fresh)
    have hsn : addLv lv s.no 0 s.no = some 0 := by unfold addLv; rw [if_pos rfl]
    obtain ⟨hh, e2, e⟩ := Res.bind_eq_ok.1 e
    obtain ⟨c1, c2, c3⟩ := insertHalf_good L' (hg _ _ hd.last) hsn nl nr (gl.mono hg) (gr.mono hg) (it := .leaf key val)
      ⟨rfl, by show 0 < 2 ^ 64; omega, fun _ => hA, fun k hk => absurd hk (by omega)⟩ e2
    split at e
    · obtain ⟨d, -, e⟩ := Res.bind_eq_ok.1 e
      obtain ⟨q, e3, e⟩ := Res.bind_eq_ok.1 e
      have hl : path.dropLast.reverse.length = h := by rw [List.length_reverse, List.length_dropLast, hlen]; omega
      obtain ⟨lv', d1, d2, d3, d4, d5⟩ := propagate_good hal _ c1 (hd.up.mono hg) hsn (by rw [hl]; omega) e3
      rw [hl] at d3 d5
      have hr' := d1 _ _ (hg _ _ hroot)
      split at e
      · cases e
        refine ⟨lv', hg.trans d1, d2, by simp only []; omega, d4.trans (c3.trans b2), fun n hn => ?_⟩
        cases hn; exact ⟨h, hr'⟩
      · split at e
        · rename_i hsucc
          have h5 := d5 hsucc
          rw [Nat.zero_add] at h5
          obtain ⟨lv2, f1, f2, f3, f4, f5⟩ := rootSplit_good hal d2 hr' h5 (by omega) e
          exact ⟨lv2, (hg.trans d1).trans f1, f2, by omega, f4.trans (d4.trans (c3.trans b2)), fun n hn => ⟨_, f5 n hn⟩⟩
        · cases e
          exact ⟨lv', hg.trans d1, d2, by simp only []; omega, d4.trans (c3.trans b2), fun n hn => by cases hn⟩
    · cases e
      exact ⟨_, hg, c1, by simp only []; omega, c3.trans b2, fun n hn => by cases hn⟩

theorem Loose.reroot {env : Env} {A : Bytes → Bytes → Prop} {t : Txn} {lv : Nat → Option Nat} (L : Loose env A t lv) (n : Nat) : Loose env A { t with root := n } lv :=
  ⟨L.rdonly, L.free, L.page, L.bound⟩

theorem withRoot_good {env : Env} {A : Bytes → Bytes → Prop} {r : Txn × Except Status Nat} {lv : Nat → Option Nat} {h : Nat} (L : Loose env A r.1 lv)
    (h0 : r.1.root ≠ 0 → lv r.1.root = some h) (h1 : ∀ n, r.2 = .ok n → ∃ h', lv n = some h') : Sane env A (withRoot r).2 ∧ (withRoot r).2.newLast = r.1.newLast := by
  obtain ⟨t, x⟩ := r
  cases x with
  | error e => exact ⟨⟨lv, h, L, h0⟩, rfl⟩
  | ok n =>
    obtain ⟨h', hn⟩ := h1 n rfl
    exact ⟨⟨lv, h', L.reroot n, fun _ => hn⟩, rfl⟩

theorem path_pages {env : Env} {A : Bytes → Bytes → Prop} {t : Txn} {lv : Nat → Option Nat} (L : Loose env A t lv) {path : List Nat} {h : Nat} (hd : Down lv h path) :
    ∀ n ∈ path, ∃ p, getPage env t n = .ok p ∧ pgno p = n ∧ WF p := by
  intro n hn
  obtain ⟨k, hk⟩ := hd.mem n hn
  obtain ⟨p, h1, h2, h3⟩ := L.page n k hk
  exact ⟨p, h1, h2, h3.wf⟩

theorem put_good {al : Alloc} (hal : Extends al) {env : Env} {A : Bytes → Bytes → Prop} {t : Txn} (S : Sane env A t) {key val : Bytes} (hA : A key val)
    (h64 : t.newLast + 33 < 2 ^ 64) {r : Status × Txn} (e : putWith al env t key val = .ok r) : Sane env A r.2 ∧ r.2.newLast ≤ t.newLast + 33 := by
  obtain ⟨lv, h, L, hroot⟩ := S
  unfold putWith at e
  rw [L.rdonly] at e
  simp only [Bool.false_eq_true, if_false] at e
  split at e
  · rename_i hz
    obtain ⟨x, e1, e⟩ := Res.bind_eq_ok.1 e
    cases e
    unfold newTree at e1
    rw [hal t L.free, Res.ok_bind] at e1
    obtain ⟨q, e2, e1⟩ := Res.bind_eq_ok.1 e1
    obtain ⟨g, n, -⟩ := insert_good (A := A) (lv := lv) (empty_good (h := 0) (no := t.newLast + 1) (by omega)) (Nat.zero_le _)
      (it := .leaf key val) ⟨rfl, by show 0 < 2 ^ 64; omega, fun _ => hA, fun k hk => absurd hk (by omega)⟩ e2
    have hfl := emptyPage_fields true (t.newLast + 1) (by omega)
    split at e1
    · cases e1
      obtain ⟨a, b⟩ := withRoot_good (h := 0) (r := ((extend t).2.setDirty (extend t).1 q.2, .ok (extend t).1)) (L.grow.add L.fresh (Nat.succ_pos _) (Nat.le_refl _) (n.trans hfl.2.2.2.2) g)
        (fun hne => absurd hz hne) (fun n hn => by cases hn; exact ⟨0, by unfold addLv; rw [if_pos rfl]⟩)
      exact ⟨a, by rw [b]; show t.newLast + 1 ≤ _; omega⟩
    · cases e1
      obtain ⟨a, b⟩ := withRoot_good (h := h) (r := ((extend t).2, .error (ofSt q.1))) L.grow hroot (fun n hn => by cases hn)
      exact ⟨a, by rw [b]; show t.newLast + 1 ≤ _; omega⟩
  · rename_i hz
    have hr := hroot hz
    have hbad : Sane env A t ∧ t.newLast ≤ t.newLast + 33 := ⟨⟨lv, h, L, hroot⟩, by omega⟩
    obtain ⟨x, e1, e⟩ := Res.bind_eq_ok.1 e
    cases x with
    | error s => cases e; exact hbad
    | ok path =>
      obtain ⟨hd, hhead, hlen⟩ := findPath_good L hr e1
      obtain ⟨leaf, e2, e⟩ := Res.bind_eq_ok.1 e
      obtain ⟨f, e3, e⟩ := Res.bind_eq_ok.1 e
      split at e
      · cases e; exact hbad
      · obtain ⟨c, e4, e⟩ := Res.bind_eq_ok.1 e
        obtain ⟨t1, h1, s1, -, -⟩ := cowPath_spec L.rdonly hd.ne (path_pages L hd)
        rw [h1] at e4; cases e4
        have L1 := L.same s1
        simp only [] at e
        obtain ⟨p, e5, e⟩ := Res.bind_eq_ok.1 e
        cases hdp : t1.getDirty (path.getLastD 0) with
        | none => rw [hdp] at e5; cases e5
        | some p' =>
        rw [hdp, Res.ofOption_some] at e5; cases e5
        obtain ⟨q, hq, hqn, g⟩ := L1.page _ _ hd.last
        rw [getPage_dirty L1.rdonly hdp] at hq; cases hq
        have hleaf : leaf = p := by
          have := s1.view (path.getLastD 0)
          rw [e2, getPage_dirty L1.rdonly hdp] at this
          exact (Res.ok.inj this).symm
        subst hleaf
        obtain ⟨d, e6, e⟩ := Res.bind_eq_ok.1 e
        have hd2 : Good A lv 0 d.2 ∧ pgno d.2 = pgno leaf ∧ (d.1 = .ok → f.idx ≤ numKeys d.2) := by
          obtain ⟨hb, hfd⟩ := probe_any g.wf e3
          cases f with
          | notFound i =>
            simp only [Found.hit, Bool.false_eq_true, if_false] at e6
            cases e6; exact ⟨g, rfl, fun _ => hb⟩
          | found i =>
            simp only [Found.hit, if_true] at e6
            obtain ⟨a, b⟩ := delete_good g e6
            refine ⟨a, b, fun hok => ?_⟩
            obtain ⟨hi, -⟩ := hfd i rfl
            obtain ⟨q, e', -, hit, -⟩ := delete_removes_exactly_one g.wf hi
            rw [show delete leaf (Found.found i).idx = _ from e'] at e6; cases e6
            show i ≤ numKeys q
            rw [← items_length, hit, List.length_eraseIdx, items_length, if_pos hi]; omega
        obtain ⟨g2, n2, hidx⟩ := hd2
        have L2 := L1.set hd.last (n2.trans hqn) g2
        have hlast : (t1.setDirty (path.getLastD 0) d.2).newLast = t.newLast := s1.newLast
        have hroot1 : (t1.setDirty (path.getLastD 0) d.2).root = t.root := s1.root
        have hfin : Sane env A (t1.setDirty (path.getLastD 0) d.2) ∧ (t1.setDirty (path.getLastD 0) d.2).newLast ≤ t.newLast + 33 :=
          ⟨⟨lv, h, L2, by rw [hroot1]; exact hroot⟩, by rw [hlast]; omega⟩
        split at e
        · rename_i hok
          obtain ⟨q, e7, e⟩ := Res.bind_eq_ok.1 e
          obtain ⟨g3, n3, -⟩ := insert_good g2 (hidx hok) (it := .leaf key val) ⟨rfl, by show 0 < 2 ^ 64; omega, fun _ => hA, fun k hk => absurd hk (by omega)⟩ e7
          split at e
          · cases e
            exact ⟨⟨lv, h, L2.set hd.last (n3.trans (n2.trans hqn)) g3, by show t1.root ≠ 0 → lv t1.root = _; rw [s1.root]; exact hroot⟩, by show t1.newLast ≤ _; rw [s1.newLast]; omega⟩
          · cases e; exact hfin
          · obtain ⟨x, e8, e⟩ := Res.bind_eq_ok.1 e
            cases e
            have hl32 : path.length ≤ 32 := hlen
            obtain ⟨lv', a1, a2, a3, a4, a5⟩ := pageSplit_good hal L2 hd (by rw [hhead]; exact hr) hA (by rw [hlast]; omega) e8
            obtain ⟨b1, b2⟩ := withRoot_good (h := h) a2 (by rw [a4, hroot1]; exact fun hne => a1 _ _ (hroot hne)) a5
            exact ⟨b1, by rw [b2]; omega⟩
        · cases e; exact hfin

theorem del_good {env : Env} {A : Bytes → Bytes → Prop} {t : Txn} (S : Sane env A t) {key : Bytes}
    {r : Status × Txn} (e : del env t key = .ok r) : Sane env A r.2 ∧ r.2.newLast = t.newLast := by
  obtain ⟨lv, h, L, hroot⟩ := S
  have hbad : Sane env A t ∧ t.newLast = t.newLast := ⟨⟨lv, h, L, hroot⟩, rfl⟩
  unfold del at e
  rw [L.rdonly] at e
  simp only [Bool.false_eq_true, if_false] at e
  split at e
  · cases e; exact hbad
  · rename_i hz
    obtain ⟨x, e1, e⟩ := Res.bind_eq_ok.1 e
    cases x with
    | error s => cases e; exact hbad
    | ok path =>
      obtain ⟨hd, hhead, hlen⟩ := findPath_good L (hroot hz) e1
      obtain ⟨leaf, e2, e⟩ := Res.bind_eq_ok.1 e
      obtain ⟨f, e3, e⟩ := Res.bind_eq_ok.1 e
      split at e
      · obtain ⟨c, e4, e⟩ := Res.bind_eq_ok.1 e
        obtain ⟨t1, h1, s1, -, -⟩ := cowPath_spec L.rdonly hd.ne (path_pages L hd)
        rw [h1] at e4; cases e4
        have L1 := L.same s1
        simp only [] at e
        split at e
        · cases e; exact ⟨⟨lv, h, L1, by rw [s1.root]; exact hroot⟩, s1.newLast⟩
        · rename_i p hdp
          obtain ⟨q, hq, hqn, g⟩ := L1.page _ _ hd.last
          rw [getPage_dirty L1.rdonly hdp] at hq; cases hq
          obtain ⟨d, e5, e⟩ := Res.bind_eq_ok.1 e
          cases e
          obtain ⟨g2, n2⟩ := delete_good g e5
          exact ⟨⟨lv, h, L1.set hd.last (n2.trans hqn) g2, by show t1.root ≠ 0 → lv t1.root = _; rw [s1.root]; exact hroot⟩, s1.newLast⟩
      · cases e; exact hbad

/-! ### Lookups -/

theorem inside_of_wf {p : Page} (wf : WF p) {i : Nat} (hi : i < numKeys p) (n : Nat) : Inside p (isLeaf p) i n := by
  have hin := wf.inside i hi
  have hlow := wf.low
  have hgap := wf.gap
  have htop := wf.top
  simp only [hdrSize, pageSize] at *
  refine ⟨by omega, ?_⟩
  cases hl : isLeaf p <;>
    simp only [hl, nodeSize, baseSize, nodeKs, nodeDs, ksOff, slot, hdrSize, Bool.false_eq_true, if_false, if_true] at hin ⊢ <;> omega

theorem probe_defined {p : Page} (wf : WF p) (key : Bytes) : ∃ f, probe p key = .ok f := by
  have hk : (key.take (key.length % 65536)).length < 65536 := by
    rw [List.length_take]; have := Nat.mod_lt key.length (show 65536 > 0 by decide); omega
  unfold probe
  rw [oversized_key_is_truncated]
  rcases (search_any p (key.take (key.length % 65536)) hk).1 with ⟨-, e⟩ | ⟨r, e, -⟩ | ⟨-, i, hi, hn⟩
  · exact ⟨.notFound 0, by rw [e]; rfl⟩
  · exact ⟨r, by rw [e]; rfl⟩
  · rw [leaf_branch wf] at hn; exact absurd (inside_of_wf wf hi _) hn

theorem childIdx_defined {p : Page} (wf : WF p) (key : Bytes) : ∃ i, childIdx p key = .ok i := by
  obtain ⟨f, hf⟩ := probe_defined wf key
  unfold childIdx
  rw [hf]; exact ⟨_, rfl⟩

theorem child_defined {p : Page} (wf : WF p) (hl : isLeaf p = false) {i : Nat} (hi : i < numKeys p) : ∃ c, child p i = .ok c := by
  have hlen : i < (items p).length := by simpa using hi
  have hsplit : entries p = ((entries p).take i) ++ (((items p)[i]).key, ((items p)[i]).child) :: (entries p).drop (i + 1) := by
    have hi' : i < (entries p).length := by simpa [entries] using hi
    have : (entries p)[i] = (((items p)[i]).key, ((items p)[i]).child) := by simp [entries]
    rw [← this, List.getElem_cons_drop, List.take_append_drop]
  have hs := child_spec wf hl hsplit
  rw [List.length_take, show min i (entries p).length = i by simp [entries]; omega] at hs
  exact ⟨_, hs⟩

theorem entries_items {p : Page} : entries p = [] ↔ numKeys p = 0 := by
  rw [← List.length_eq_zero_iff]; simp [entries]

/-- No branch page of the tree of height `h` at page `n` is empty. -/
def Branching (g : View) : Nat → Nat → Prop
  | 0, _ => True
  | h + 1, n => ∀ p, g n = .ok p → entries p ≠ [] ∧ ∀ e ∈ entries p, Branching g h e.2

theorem findLeaf_good {env : Env} {A : Bytes → Bytes → Prop} {t : Txn} {lv : Nat → Option Nat} (L : Loose env A t lv) {key : Bytes} : ∀ {h fuel n : Nat},
    lv n = some h →
    (h < fuel → findLeaf env t key fuel n = .ub ∨ ∃ p, findLeaf env t key fuel n = .ok (.ok p)) ∧
    (h < fuel → Branching (getPage env t) h n → ∃ p, findLeaf env t key fuel n = .ok (.ok p)) ∧
    (∀ x, findLeaf env t key fuel n = .ok x → ∃ p, x = .ok p ∧ Good A lv 0 p) := by
  intro h
  induction h with
  | zero =>
    intro fuel n hn
    obtain ⟨p, hp, -, g⟩ := L.page _ _ hn
    have hl : isLeaf p = true := g.kind
    cases fuel with
    | zero => exact ⟨fun h => absurd h (by omega), fun h => absurd h (by omega), fun x e => by cases e⟩
    | succ fuel =>
      rw [findLeaf, hp, Res.ok_bind, hl, if_pos rfl]
      exact ⟨fun _ => .inr ⟨p, rfl⟩, fun _ _ => ⟨p, rfl⟩, fun x e => by cases e; exact ⟨p, rfl, g⟩⟩
  | succ h ih =>
    intro fuel n hn
    obtain ⟨p, hp, -, g⟩ := L.page _ _ hn
    have hl : isLeaf p = false := g.kind
    cases fuel with
    | zero => exact ⟨fun h => absurd h (by omega), fun h => absurd h (by omega), fun x e => by cases e⟩
    | succ fuel =>
      rw [findLeaf, hp, Res.ok_bind, hl, g.wf.not_leaf hl]
      simp only [Bool.false_eq_true, if_false, Bool.not_true]
      obtain ⟨i, hi⟩ := childIdx_defined g.wf key
      rw [hi, Res.ok_bind]
      rcases childIdx_any g.wf hi with hlt | ⟨h0, rfl⟩
      · obtain ⟨c, hc⟩ := child_defined g.wf hl hlt
        rw [hc, Res.ok_bind]
        obtain ⟨a1, a2, a3⟩ := ih (fuel := fuel) (step_down L hn hp hi hc)
        refine ⟨fun hf => a1 (by omega), fun hf hb => a2 (by omega) ?_, a3⟩
        obtain ⟨it, hm, rfl⟩ := child_mem g.wf hl hlt hc
        exact (hb p hp).2 (it.key, it.child) (List.mem_map.2 ⟨it, hm, rfl⟩)
      · rw [child_empty]
        refine ⟨fun _ => .inl rfl, fun _ hb => ?_, fun x e => by cases e⟩
        exact absurd (entries_items.2 h0) (hb p hp).1

theorem get_good {env : Env} {A : Bytes → Bytes → Prop} {t : Txn} {lv : Nat → Option Nat} {h : Nat} (L : Loose env A t lv) (hroot : t.root ≠ 0 → lv t.root = some h)
    {key : Bytes} (hk : key.length < 65536) {fuel : Nat} :
    (h < fuel → get env t fuel key ≠ .div) ∧
    (h < fuel → (t.root ≠ 0 → Branching (getPage env t) h t.root) → ∃ x, get env t fuel key = .ok x) ∧
    (∀ x, get env t fuel key = .ok x → x = .error .notfound ∨ ∃ v, x = .ok v ∧ A key v) := by
  unfold get
  by_cases hz : t.root = 0
  · rw [if_pos hz]
    exact ⟨fun _ => by simp, fun _ _ => ⟨_, rfl⟩, fun x e => by cases e; exact .inl rfl⟩
  · rw [if_neg hz]
    obtain ⟨a1, a2, a3⟩ := findLeaf_good L (key := key) (fuel := fuel) (hroot hz)
    have key' : ∀ p, findLeaf env t key fuel t.root = .ok (.ok p) → ∃ x : Except Status Bytes, (do
        match ← findLeaf env t key fuel t.root with
        | .error e => Res.ok (.error e)
        | .ok p =>
          match ← probe p key with
          | .notFound _ => .ok (.error .notfound)
          | .found i => do
            let kv ← leafNode p i
            .ok (.ok kv.2) : Res (Except Status Bytes)) = .ok x ∧ (x = .error .notfound ∨ ∃ v, x = .ok v ∧ A key v) := by
      intro p hp
      obtain ⟨p', e, g⟩ := a3 _ hp
      cases e
      rw [hp]
      obtain ⟨f, hf⟩ := probe_defined g.wf key
      simp only [Res.ok_bind, hf]
      cases f with
      | notFound i => exact ⟨_, rfl, .inl rfl⟩
      | found i =>
        obtain ⟨hi, hki⟩ := (probe_any g.wf hf).2 i rfl
        rw [Nat.mod_eq_of_lt hk, List.take_length] at hki
        have hlen : i < (items p).length := by simpa using hi
        have hkv : (kvs p)[i]? = some (((items p)[i]).key, ((items p)[i]).val) := by
          unfold kvs; rw [List.getElem?_map, List.getElem?_eq_getElem hlen]; rfl
        simp only [leafNode_spec g.wf g.kind hkv, Res.ok_bind]
        refine ⟨_, rfl, .inr ⟨_, rfl, ?_⟩⟩
        rw [← hki]; exact g.pairs rfl _ (List.getElem_mem hlen)
    refine ⟨fun hf => ?_, fun hf hb => ?_, fun x e => ?_⟩
    · rcases a1 hf with h1 | ⟨p, hp⟩
      · rw [h1]; simp
      · obtain ⟨x, hx, -⟩ := key' p hp
        intro hd; exact absurd (hx.symm.trans hd) (by simp)
    · obtain ⟨p, hp⟩ := a2 hf (hb hz)
      obtain ⟨x, hx, -⟩ := key' p hp
      exact ⟨x, hx⟩
    · obtain ⟨y, hy, -⟩ := Res.bind_eq_ok.1 e
      obtain ⟨p, rfl, -⟩ := a3 y hy
      obtain ⟨x', hx, hh⟩ := key' p hy
      have := hx.symm.trans e
      cases this
      exact hh

/-! ### Databases to start from -/

/-- Page `m` stands at height `k` in the tree of height `h` at page `n`. -/
def Level (g : View) : Nat → Nat → Nat → Nat → Prop
  | 0, n, m, k => m = n ∧ k = 0
  | h + 1, n, m, k => m = n ∧ k = h + 1 ∨ ∃ p, g n = .ok p ∧ ∃ e ∈ entries p, Level g h e.2 m k

theorem Level.mem {g : View} : ∀ {h n m k : Nat}, Level g h n m k → m ∈ pagesOf g h n
  | 0, _, _, _, e => by rw [e.1]; simp [pagesOf]
  | h + 1, n, m, k, e => by
    rw [pagesOf]
    rcases e with ⟨rfl, -⟩ | ⟨p, hp, x, hx, e⟩
    · exact List.mem_cons_self
    · rw [hp]; exact List.mem_cons_of_mem _ (List.mem_flatMap.2 ⟨x, hx, e.mem⟩)

theorem Level.unique {g : View} : ∀ {h n m k k' : Nat}, (pagesOf g h n).Nodup → Level g h n m k → Level g h n m k' → k = k'
  | 0, _, _, _, _, _, a, b => a.2.trans b.2.symm
  | h + 1, n, m, k, k', nd, a, b => by
    rw [pagesOf] at nd
    rcases a with ⟨rfl, a⟩ | ⟨p, hp, x, hx, a⟩ <;> rcases b with ⟨hb, b⟩ | ⟨p', hp', x', hx', b⟩
    · rw [a, b]
    · rw [hp'] at nd
      exact absurd (List.mem_flatMap.2 ⟨x', hx', b.mem⟩) (List.nodup_cons.1 nd).1
    · subst hb
      rw [hp] at nd
      exact absurd (List.mem_flatMap.2 ⟨x, hx, a.mem⟩) (List.nodup_cons.1 nd).1
    · rw [hp] at hp'; cases hp'
      rw [hp] at nd
      have nd' := (List.nodup_cons.1 nd).2
      obtain ⟨i, hi, rfl⟩ := List.getElem_of_mem hx
      obtain ⟨j, hj, rfl⟩ := List.getElem_of_mem hx'
      unfold List.Nodup at nd'
      rw [List.pairwise_flatMap] at nd'
      by_cases hij : i = j
      · subst hij
        exact Level.unique (nd'.1 _ hx) a b
      · exfalso
        have hpw := List.pairwise_iff_getElem.1 nd'.2
        rcases Nat.lt_or_gt_of_ne hij with hlt | hgt
        · exact hpw i j hi hj hlt _ a.mem _ b.mem rfl
        · exact hpw j i hj hi hgt _ b.mem _ a.mem rfl

theorem Level.page {g : View} : ∀ {h n m k : Nat} {lo hi : Option Bytes}, WFT g h lo hi n → Level g h n m k →
    ∃ p, g m = .ok p ∧ pgno p = m ∧ WF p ∧ isLeaf p = (k == 0) ∧ (k = 0 → ∀ it ∈ items p, (it.key, it.val) ∈ contents g h n) ∧
      ∀ j, k = j + 1 → ∀ it ∈ items p, Level g h n it.child j
  | 0, n, m, k, lo, hi, w, e => by
    obtain ⟨rfl, rfl⟩ := e
    obtain ⟨p, h1, h2, h3, h4, -⟩ := w
    refine ⟨p, h1, h2, h3, h4, fun _ it hi => ?_, fun j hj => absurd hj (by omega)⟩
    rw [contents, h1]
    exact List.mem_map.2 ⟨it, hi, rfl⟩
  | h + 1, n, m, k, lo, hi, w, e => by
    obtain ⟨p, h1, h2, h3, h4, -, h6⟩ := w
    rcases e with ⟨rfl, rfl⟩ | ⟨q, hq, x, hx, e⟩
    · refine ⟨p, h1, h2, h3, h4, fun h0 => absurd h0 (by omega), fun j hj it hi => ?_⟩
      cases hj
      refine .inr ⟨p, h1, (it.key, it.child), List.mem_map.2 ⟨it, hi, rfl⟩, ?_⟩
      cases h with
      | zero => exact ⟨rfl, rfl⟩
      | succ h => exact .inl ⟨rfl, rfl⟩
    · rw [h1] at hq; cases hq
      obtain ⟨lo', hi', hc⟩ := kids_mem h6 hx
      obtain ⟨q, a1, a2, a3, a4, a5, a6⟩ := Level.page hc e
      refine ⟨q, a1, a2, a3, a4, fun h0 it hi => ?_, fun j hj it hi => .inr ⟨p, h1, x, hx, a6 j hj it hi⟩⟩
      rw [contents, h1]
      exact List.mem_flatMap.2 ⟨x, hx, a5 h0 it hi⟩

open Classical in
/-- A database that holds a map is sound. -/
theorem sound_of_map {env : Env} {t : Txn} {h : Nat} {m : KvMap} (hr : t.rdonly = false) (hf : t.freeRoot = 0) (hm : IsMap env t h m)
    {A : Bytes → Bytes → Prop} (hA : ∀ k v, m k = some v → A k v) : Sane env A t := by
  obtain ⟨l, hl, hlm⟩ := hm
  rcases hl with ⟨h0, -⟩ | ⟨hne, T, hc⟩
  · exact ⟨fun _ => none, 0, ⟨hr, hf, (fun n h hn => by cases hn), (fun n h hn => by cases hn)⟩, fun h => absurd h0 h⟩
  · let lv : Nat → Option Nat := fun n => if hx : ∃ k, Level (getPage env t) h t.root n k then some (Classical.choose hx) else none
    have hlv : ∀ n k, lv n = some k ↔ Level (getPage env t) h t.root n k := by
      intro n k
      by_cases hx : ∃ k, Level (getPage env t) h t.root n k
      · have hs : lv n = some (Classical.choose hx) := dif_pos hx
        rw [hs]
        constructor
        · intro e; cases e; exact Classical.choose_spec hx
        · intro e; rw [Level.unique T.nodup e (Classical.choose_spec hx)]
      · have hs : lv n = none := dif_neg hx
        rw [hs]
        exact ⟨(fun e => by cases e), fun e => absurd ⟨k, e⟩ hx⟩
    refine ⟨lv, h, ⟨hr, hf, fun n k hn => ?_, fun n k hn => T.bound n ((hlv n k).1 hn).mem⟩, fun _ => (hlv _ _).2 ?_⟩
    · obtain ⟨p, a1, a2, a3, a4, a5, a6⟩ := Level.page T.wft ((hlv n k).1 hn)
      refine ⟨p, a1, a2, a3, a4, fun h0 it hi => hA _ _ ?_, fun j hj it hi => (hlv _ _).2 (a6 j hj it hi)⟩
      have hmem := a5 h0 it hi
      have hs : Ascending (contents (getPage env t) h t.root) := (wft_range h T.wft).1
      obtain ⟨X, Y, hXY⟩ := List.append_of_mem hmem
      rw [← hlm, ← hc, hXY]
      rw [hXY] at hs
      rw [lookup_mid hs]; simp
    · cases h with
      | zero => exact ⟨rfl, rfl⟩
      | succ h => exact .inl ⟨rfl, rfl⟩

end Verif.Db
