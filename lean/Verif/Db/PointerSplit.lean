import Verif.Db.Pointer
import Verif.Db.Refused
import Verif.Db.Loose
import Verif.Db.Inv

/-!
# Pointers and splits

What a `put` that splits pages leaves of the bytes behind a pointer into a leaf buffer.  Helper lemmas for C121.
-/

namespace Verif.Db

open Verif.Page

/-- Page `no` is as before, and pages were only added at the end. -/
structure Frame (no : Nat) (t t' : Txn) : Prop where
  page : t'.getDirty no = t.getDirty no
  last : t.newLast ≤ t'.newLast
  free : t'.freeRoot = t.freeRoot

theorem Frame.refl (no : Nat) (t : Txn) : Frame no t t := ⟨rfl, Nat.le_refl _, rfl⟩

theorem Frame.trans {no : Nat} {a b c : Txn} (h1 : Frame no a b) (h2 : Frame no b c) : Frame no a c :=
  ⟨h2.page.trans h1.page, Nat.le_trans h1.last h2.last, h2.free.trans h1.free⟩

theorem Frame.set {no n : Nat} (h : no ≠ n) (t : Txn) (p : Page) : Frame no t (t.setDirty n p) :=
  ⟨by rw [getDirty_setDirty, if_neg h], Nat.le_refl _, rfl⟩

theorem Frame.extend (no : Nat) (t : Txn) : Frame no t (Verif.Db.extend t).2 :=
  ⟨rfl, Nat.le_succ _, rfl⟩

theorem splitTxn_frame {al : Alloc} (hal : Extends al) {leaf : Bool} {t : Txn} (hf : t.freeRoot = 0) {no lk : Nat} (hne : no ≠ lk) (hle : no ≤ t.newLast)
    {r : Txn × Except Status SplitTxn} (h : splitTxn al leaf t lk = .ok r) : Frame no t r.1 ∧ ∀ s, r.2 = .ok s → s.no = t.newLast + 1 := by
  unfold splitTxn at h
  obtain ⟨p, -, h⟩ := Res.bind_eq_ok.1 h
  generalize (if leaf = true then isLeaf p else isBranch p) = b at h
  cases b with
  | false => cases h; exact ⟨.refl _ _, fun s hs => by cases hs⟩
  | true =>
    simp only [Bool.not_true, Bool.false_eq_true, if_false] at h
    rw [hal t hf, Res.ok_bind] at h
    obtain ⟨q, -, h⟩ := Res.bind_eq_ok.1 h
    obtain ⟨o, -, h⟩ := Res.bind_eq_ok.1 h
    cases o with
    | none => cases h; exact ⟨.extend _ _, fun s hs => by cases hs⟩
    | some s =>
      cases h
      refine ⟨((Frame.extend no t).trans (.set hne _ _)).trans (.set ?_ _ _), fun s' hs => ?_⟩
      · show no ≠ t.newLast + 1; omega
      · cases hs; rfl

theorem insertHalf_frame {t : Txn} {no lk : Nat} {s : SplitTxn} {it : Item} (hne : no ≠ lk) (hs : no ≠ s.no) {r : Status × Txn}
    (h : insertHalf t lk s it = .ok r) : Frame no t r.2 := by
  unfold insertHalf at h
  obtain ⟨f, -, h⟩ := Res.bind_eq_ok.1 h
  split at h
  · obtain ⟨g, -, h⟩ := Res.bind_eq_ok.1 h
    obtain ⟨q, -, h⟩ := Res.bind_eq_ok.1 h
    cases h; exact .set hs _ _
  · obtain ⟨q, -, h⟩ := Res.bind_eq_ok.1 h
    cases h
    show Frame no t (if s.no = lk then t else t.setDirty lk q.2)
    split
    · exact .refl _ _
    · exact .set hne _ _

theorem propagate_frame {al : Alloc} (hal : Extends al) {no : Nat} : ∀ (ns : List Nat) {t : Txn} {k : Bytes} {c : Nat} {r : Txn × Status × Bytes × Nat},
    t.freeRoot = 0 → no ≤ t.newLast → no ∉ ns → propagate al ns t k c = .ok r → Frame no t r.1 := by
  intro ns
  induction ns with
  | nil => intro t k c r _ _ _ h; cases h; exact .refl _ _
  | cons n ns ih =>
    intro t k c r hf hle hn h
    have hne : no ≠ n := fun e => hn (by rw [e]; exact List.mem_cons_self)
    rw [propagate] at h
    cases hd : t.getDirty n with
    | none => rw [hd] at h; cases h; exact .refl _ _
    | some p =>
      rw [hd] at h
      simp only [] at h
      obtain ⟨f, -, h⟩ := Res.bind_eq_ok.1 h
      obtain ⟨q, -, h⟩ := Res.bind_eq_ok.1 h
      split at h
      · cases h; exact .set hne _ _
      · cases h; exact .refl _ _
      · obtain ⟨sp, h1, h⟩ := Res.bind_eq_ok.1 h
        obtain ⟨F1, hno⟩ := splitTxn_frame hal hf hne hle h1
        cases hs : sp.2 with
        | error e => rw [hs] at h; cases h; exact F1
        | ok s =>
          rw [hs] at h
          simp only [] at h
          obtain ⟨hh, h2, h⟩ := Res.bind_eq_ok.1 h
          have F2 := insertHalf_frame hne (by rw [hno s hs]; omega) h2
          have F := F1.trans F2
          split at h
          · exact F.trans (ih (by rw [F.free, hf]) (Nat.le_trans hle F.last) (fun hm => hn (List.mem_cons_of_mem _ hm)) h)
          · cases h; exact F

theorem rootSplit_frame {al : Alloc} (hal : Extends al) {t : Txn} (hf : t.freeRoot = 0) {no old right : Nat} {d : Bytes} (hle : no ≤ t.newLast)
    {r : Txn × Except Status Nat} (h : rootSplit al t old right d = .ok r) : Frame no t r.1 := by
  unfold rootSplit at h
  rw [hal t hf, Res.ok_bind] at h
  simp only [] at h
  split at h
  · cases h; exact .extend _ _
  · obtain ⟨k, -, h⟩ := Res.bind_eq_ok.1 h
    obtain ⟨q, -, h⟩ := Res.bind_eq_ok.1 h
    split at h
    · obtain ⟨q2, -, h⟩ := Res.bind_eq_ok.1 h
      split at h
      · cases h
        exact (Frame.extend no t).trans (.set (by show no ≠ t.newLast + 1; omega) _ _)
      · cases h; exact .extend _ _
    · cases h; exact .extend _ _

/-- The leaf buffer `p` became `p'`: what lies at `lo` and above is the same. -/
structure From (lo : Nat) (p p' : Page) : Prop where
  wf : WF p'
  up : upper p' ≤ lo
  hi : ∀ j, lo ≤ j → j < pageSize → p' j = p j

theorem From.refl {lo : Nat} {p : Page} (wf : WF p) (h : upper p ≤ lo) : From lo p p := ⟨wf, h, fun _ _ _ => rfl⟩

theorem shrink_bytes {p q : Page} {sp : Nat} (h : shrink p sp = .ok q) {j : Nat} (hj : 16 ≤ j) : q j = p j := by
  unfold shrink at h
  simp only [] at h
  obtain ⟨m, -, h⟩ := Res.bind_eq_ok.1 h
  cases h
  rw [put16_out (by omega), put16_out (by omega), put16_out (by omega)]

/-- A split of the leaf and the insertion into a half. -/
theorem split_from {al : Alloc} (hal : Extends al) {t : Txn} (hf : t.freeRoot = 0) {lk : Nat} {p : Page} (hp : t.getDirty lk = some p) (wf : WF p) (hl : isLeaf p = true)
    (hle : lk ≤ t.newLast) (h64 : t.newLast + 1 < 2 ^ 64) {key val : Bytes} (hs : 4 + key.length + val.length < 65536) {t1 : Txn} {s : SplitTxn}
    (h1 : splitTxn al true t lk = .ok (t1, .ok s)) {r : Status × Txn} (h2 : insertHalf t1 lk s (.leaf key val) = .ok r) :
    s.no = t.newLast + 1 ∧ r.2.newLast = t.newLast + 1 ∧ r.2.freeRoot = 0 ∧
      ∃ p', r.2.getDirty lk = some p' ∧ WF p' ∧ upper p' ≤ lowestOf p (numKeys p / 2) ∧ ∀ j, lowestOf p (numKeys p / 2) ≤ j → j < pageSize → p' j = p j := by
  obtain ⟨q, a1, a2, a3, a4, a5, a6, a7, a8, a9, a12⟩ := split_leaf_any wf hl h64
  have hne : t.newLast + 1 ≠ lk := by omega
  have hp' : (extend t).2.getDirty lk = some p := hp
  unfold splitTxn at h1
  rw [hp, Res.ofOption_some, Res.ok_bind, hl] at h1
  simp only [if_true, Bool.not_true, Bool.false_eq_true, if_false] at h1
  rw [hal t hf, Res.ok_bind, hp', Res.ofOption_some, Res.ok_bind] at h1
  have a1' : splitLeaf p (extend t).1 = .ok (some q) := a1
  rw [a1', Res.ok_bind] at h1
  have e1 := (Prod.mk.inj (Res.ok.inj h1)).1
  have e2 := Except.ok.inj (Prod.mk.inj (Res.ok.inj h1)).2
  have hlow := wf.low
  have hgap := wf.gap
  have htop := wf.top
  simp only [pageSize, hdrSize] at hlow htop
  have hshr : shrink p (numKeys p / 2) = .ok q.left := by
    unfold splitLeaf at a1
    simp only [hl, Bool.not_true, Bool.false_eq_true, if_false] at a1
    obtain ⟨r, -, a1⟩ := Res.bind_eq_ok.1 a1
    obtain ⟨l, b1, a1⟩ := Res.bind_eq_ok.1 a1
    obtain ⟨d, -, a1⟩ := Res.bind_eq_ok.1 a1
    cases a1
    exact b1
  have hup := shrink_upper (by simp only [hdrSize, pageSize]; omega) hshr
  have h18 : 18 ≤ upper q.left := by
    have := a2.low; have := a2.gap
    simp only [hdrSize] at *; omega
  have hbytes : ∀ j, lowestOf p (numKeys p / 2) ≤ j → j < pageSize → q.left j = p j := fun j hj _ =>
    shrink_bytes hshr (by rw [← hup] at hj; omega)
  subst e1
  subst e2
  refine ⟨rfl, ?_⟩
  have hll : isLeaf q.left = true := a4.trans hl
  unfold insertHalf at h2
  obtain ⟨f, h3, h2⟩ := Res.bind_eq_ok.1 h2
  split at h2
  · obtain ⟨g, -, h2⟩ := Res.bind_eq_ok.1 h2
    obtain ⟨w, -, h2⟩ := Res.bind_eq_ok.1 h2
    cases h2
    refine ⟨rfl, hf, q.left, ?_, a2, by rw [hup]; exact Nat.le_refl _, hbytes⟩
    show ((((extend t).2.setDirty lk q.left).setDirty (t.newLast + 1) q.right).setDirty (t.newLast + 1) w.2).getDirty lk = _
    rw [getDirty_setDirty, if_neg (Ne.symm hne), getDirty_setDirty, if_neg (Ne.symm hne), getDirty_setDirty, if_pos rfl]
  · obtain ⟨w, h4, h2⟩ := Res.bind_eq_ok.1 h2
    cases h2
    have hnk : f.idx ≤ numKeys q.left := (probe_bound (by show key.length < 65536; omega) h3).1
    have hw : WF w.2 ∧ upper w.2 ≤ upper q.left ∧ ∀ j, upper q.left ≤ j → j < pageSize → w.2 j = q.left j := by
      have hsz : (Item.leaf key val).size = 4 + key.length + val.length := rfl
      have hk : (Item.leaf key val).hasData = isLeaf q.left := by rw [hll]; rfl
      by_cases hr : room q.left < (Item.leaf key val).size % 65536 + 2
      · rw [insert_nospc a2 hk hr] at h4; cases h4
        exact ⟨a2, Nat.le_refl _, fun _ _ _ => rfl⟩
      · rw [Nat.mod_eq_of_lt (by omega)] at hr
        obtain ⟨q', e, ha, -⟩ := insert_added a2 hnk hk (by omega) (by show 0 < _; decide) (by omega)
        rw [e] at h4; cases h4
        exact ⟨ha.wf a2 hnk, by rw [ha.up]; omega, ha.hi⟩
    have hset : (if (extend t).1 = lk then (((extend t).2.setDirty lk q.left).setDirty (t.newLast + 1) q.right)
        else (((extend t).2.setDirty lk q.left).setDirty (t.newLast + 1) q.right).setDirty lk w.2) =
        (((extend t).2.setDirty lk q.left).setDirty (t.newLast + 1) q.right).setDirty lk w.2 := if_neg hne
    show (if (extend t).1 = lk then (((extend t).2.setDirty lk q.left).setDirty (t.newLast + 1) q.right)
        else (((extend t).2.setDirty lk q.left).setDirty (t.newLast + 1) q.right).setDirty lk w.2).newLast = _ ∧
      (if (extend t).1 = lk then (((extend t).2.setDirty lk q.left).setDirty (t.newLast + 1) q.right)
        else (((extend t).2.setDirty lk q.left).setDirty (t.newLast + 1) q.right).setDirty lk w.2).freeRoot = _ ∧
      ∃ p', (if (extend t).1 = lk then (((extend t).2.setDirty lk q.left).setDirty (t.newLast + 1) q.right)
        else (((extend t).2.setDirty lk q.left).setDirty (t.newLast + 1) q.right).setDirty lk w.2).getDirty lk = some p' ∧ _
    rw [hset]
    refine ⟨rfl, hf, w.2, by rw [getDirty_setDirty, if_pos rfl], hw.1, by rw [← hup]; exact hw.2.1, fun j hj hj2 => ?_⟩
    rw [hw.2.2 j (by rw [hup]; exact hj) hj2, hbytes j hj hj2]

theorem findPath_branches {env : Env} {t : Txn} {key : Bytes} (d : Nat) : ∀ {n : Nat} {path : List Nat}, findPath env t key d n = .ok (.ok path) →
    ∀ m ∈ path.dropLast, ∃ p, getPage env t m = .ok p ∧ isLeaf p = false := by
  induction d with
  | zero => intro n path h; cases h
  | succ d ih =>
    intro n path h
    rw [findPath] at h
    split at h
    · cases h
    · obtain ⟨p, hp, h⟩ := Res.bind_eq_ok.1 h
      split at h
      · cases h
        intro m hm; simp at hm
      · rename_i hl
        split at h
        · cases h
        · obtain ⟨i, -, h⟩ := Res.bind_eq_ok.1 h
          obtain ⟨c, -, h⟩ := Res.bind_eq_ok.1 h
          obtain ⟨r, hr, h⟩ := Res.bind_eq_ok.1 h
          cases r with
          | error e => cases h
          | ok path' =>
            cases h
            obtain ⟨h1, -⟩ := findPath_leaf _ hr
            intro m hm
            rw [List.dropLast_cons_of_ne_nil h1] at hm
            rcases List.mem_cons.1 hm with rfl | hm
            · exact ⟨p, hp, by simpa using hl⟩
            · exact ih hr m hm

/-- The leaf buffer `p` is as before a split of itself, as far as the lower half of its entries goes. -/
structure Halved (p p' : Page) : Prop where
  wf : WF p'
  up : upper p' ≤ lowestOf p (numKeys p / 2)
  hi : ∀ j, lowestOf p (numKeys p / 2) ≤ j → j < pageSize → p' j = p j

theorem withRoot_dirty (r : Txn × Except Status Nat) (no : Nat) : (withRoot r).2.getDirty no = r.1.getDirty no := by
  obtain ⟨t, e⟩ := r
  cases e <;> rfl

theorem pageSplit_from {al : Alloc} (hal : Extends al) {t : Txn} (hf : t.freeRoot = 0) {lk no : Nat} {p : Page} (hp : t.getDirty no = some p) (wf : WF p)
    (hl : isLeaf p = true) (hle : no ≤ t.newLast) (h64 : t.newLast + 1 < 2 ^ 64) {key val : Bytes} (hs : 4 + key.length + val.length < 65536) {path : List Nat}
    (hpath : no ∉ path.dropLast) {r : Txn × Except Status Nat} (h : pageSplit al t lk path key val = .ok r) :
    ∃ p', r.1.getDirty no = some p' ∧ (p' = p ∨ (no = lk ∧ Halved p p')) := by
  unfold pageSplit at h
  obtain ⟨sp, h1, h⟩ := Res.bind_eq_ok.1 h
  obtain ⟨t1, sp⟩ := sp
  -- the rest of the way up leaves the page alone
  have rest : ∀ (s : SplitTxn) (t2 : Txn) (st : Status), t2.freeRoot = 0 → no ≤ t2.newLast →
      (if st = .success then do
        let d ← dividerNow t2 s
        let r ← propagate al path.dropLast.reverse t2 d s.no
        if r.2.1 = .incomplete then .ok (r.1, .ok (path.headD 0))
        else if r.2.1 = .success then rootSplit al r.1 (path.headD 0) r.2.2.2 r.2.2.1
        else .ok (r.1, .error r.2.1)
      else .ok (t2, .error st) : Res (Txn × Except Status Nat)) = .ok r → r.1.getDirty no = t2.getDirty no := by
    intro s t2 st f0 l0 h
    split at h
    · obtain ⟨d, -, h⟩ := Res.bind_eq_ok.1 h
      obtain ⟨q, hq, h⟩ := Res.bind_eq_ok.1 h
      have F := propagate_frame hal _ f0 l0 (by rw [List.mem_reverse]; exact hpath) hq
      split at h
      · cases h; exact F.page
      · split at h
        · exact (rootSplit_frame hal (by rw [F.free, f0]) (Nat.le_trans l0 F.last) h).page.trans F.page
        · cases h; exact F.page
    · cases h; rfl
  by_cases e : no = lk
  · subst e
    cases sp with
    | error e =>
      exfalso
      obtain ⟨q, a1, -⟩ := split_leaf_any wf hl h64
      have hp' : (extend t).2.getDirty no = some p := hp
      have a1' : splitLeaf p (extend t).1 = .ok (some q) := a1
      unfold splitTxn at h1
      rw [hp, Res.ofOption_some, Res.ok_bind, hl] at h1
      simp only [if_true, Bool.not_true, Bool.false_eq_true, if_false] at h1
      rw [hal t hf, Res.ok_bind, hp', Res.ofOption_some, Res.ok_bind, a1', Res.ok_bind] at h1
      cases (Prod.mk.inj (Res.ok.inj h1)).2
    | ok s =>
      simp only [] at h
      obtain ⟨u, h2, h⟩ := Res.bind_eq_ok.1 h
      obtain ⟨-, b2, b3, p', b4, b5, b6, b7⟩ := split_from hal hf hp wf hl hle h64 hs h1 h2
      refine ⟨p', ?_, .inr ⟨rfl, b5, b6, b7⟩⟩
      rw [rest s u.2 u.1 b3 (by omega) h]; exact b4
  · obtain ⟨F1, hno⟩ := splitTxn_frame hal hf e hle h1
    cases sp with
    | error e => cases h; exact ⟨p, F1.page.trans hp, .inl rfl⟩
    | ok s =>
      simp only [] at h
      obtain ⟨u, h2, h⟩ := Res.bind_eq_ok.1 h
      have F := F1.trans (insertHalf_frame e (by rw [hno s rfl]; omega) h2)
      refine ⟨p, ?_, .inl rfl⟩
      rw [rest s u.2 u.1 (by rw [F.free, hf]) (Nat.le_trans hle F.last) h]
      exact F.page.trans hp

theorem cow_last {env : Env} {t : Txn} {n : Nat} {r : Nat × Txn} (h : cow env t n = .ok r) : r.2.newLast = t.newLast := by
  unfold cow at h
  split at h
  · cases h; rfl
  · obtain ⟨p, -, -, h | h⟩ := getWritable_cases h
    · rw [h.1]
    · rw [h]; rfl

theorem cowAll_last {env : Env} (L : List Nat) : ∀ {t t' : Txn}, cowAll env t L = .ok t' → t'.newLast = t.newLast := by
  induction L with
  | nil => intro t t' h; cases h; rfl
  | cons n L ih =>
    intro t t' h
    rw [cowAll] at h
    obtain ⟨r, h1, h⟩ := Res.bind_eq_ok.1 h
    exact (ih h).trans (cow_last h1)

theorem cowPath_last {env : Env} {L : List Nat} {t : Txn} {r : Nat × Txn} (h : cowPath env t L = .ok r) : r.2.newLast = t.newLast := by
  cases L with
  | nil => cases h
  | cons n L =>
    rw [cowPath] at h
    obtain ⟨r1, h1, h⟩ := Res.bind_eq_ok.1 h
    obtain ⟨t2, h2, h⟩ := Res.bind_eq_ok.1 h
    cases h
    exact (cowAll_last _ h2).trans (cow_last h1)

/-- What any `put` does to a leaf buffer, whether it splits pages or not. -/
theorem put_from {al : Alloc} (hal : Extends al) {env : Env} {t t' : Txn} {key val : Bytes} {st : Status} (hf : t.freeRoot = 0) (h64 : t.newLast + 1 < 2 ^ 64)
    (hs : 4 + key.length + val.length < 65536) (hno : Leads env t key) (h : putWith al env t key val = .ok (st, t')) {no : Nat} {p : Page}
    (hp : t.getDirty no = some p) (wf : WF p) (hlf : isLeaf p = true) (hle : no ≤ t.newLast) : ∃ p', t'.getDirty no = some p' ∧ (Above p p' ∨ Halved p p') := by
  have same : ∀ {u : Txn}, u.getDirty no = some p → ∃ p', u.getDirty no = some p' ∧ (Above p p' ∨ Halved p p') := fun hu => ⟨p, hu, .inl (.refl wf)⟩
  unfold putWith at h
  by_cases hr : t.rdonly = true
  · rw [if_pos hr] at h; cases h; exact same hp
  rw [if_neg hr] at h
  by_cases h0 : t.root = 0
  · rw [if_pos h0] at h
    obtain ⟨r, hn, h⟩ := Res.bind_eq_ok.1 h
    have h := (Prod.mk.inj (Res.ok.inj h)).2
    change (withRoot r).2 = t' at h
    subst h
    refine same ?_
    rw [withRoot_dirty]
    unfold newTree at hn
    rw [hal t hf, Res.ok_bind] at hn
    obtain ⟨q, -, hn⟩ := Res.bind_eq_ok.1 hn
    split at hn
    · cases hn
      show ((extend t).2.setDirty (t.newLast + 1) q.2).getDirty no = _
      rw [getDirty_setDirty, if_neg (by omega)]; exact hp
    · cases hn; exact hp
  rw [if_neg h0] at h
  obtain ⟨fp, hfp, h⟩ := Res.bind_eq_ok.1 h
  cases fp with
  | error e => cases h; exact same hp
  | ok path =>
    simp only [] at h
    obtain ⟨hne, leaf, hleaf, hl⟩ := findPath_leaf _ hfp
    have hbr := findPath_branches _ hfp
    rw [hleaf, Res.ok_bind] at h
    obtain ⟨f, hfd, h⟩ := Res.bind_eq_ok.1 h
    obtain ⟨hb1, hb2⟩ := probe_bound (by omega) hfd
    split at h
    · cases h; exact same hp
    rename_i hx
    obtain ⟨c, hc, h⟩ := Res.bind_eq_ok.1 h
    obtain ⟨k1, k2, k3⟩ := cowPath_keep hc
    have kf : c.2.freeRoot = 0 := cowPath_inv (closed_freeRoot env 0) hc hf
    have kl : c.2.newLast = t.newLast := cowPath_last hc
    obtain ⟨lk, t1⟩ := c
    simp only [] at h k1 k2 k3 kf kl
    obtain ⟨p1, hp1, h⟩ := Res.bind_eq_ok.1 h
    obtain ⟨d, hd, h⟩ := Res.bind_eq_ok.1 h
    have hn1 := k1 _ _ hp
    have key2 : (no = lk ∧ d = (St.ok, p) ∧ f.idx ≤ numKeys p) ∨ no ≠ lk := by
      by_cases hcl : (t.getDirty (path.getLastD 0)).isSome = true
      · obtain ⟨q, hq⟩ := Option.isSome_iff_exists.1 hcl
        have hlk := k2 q hq
        by_cases hnn : no = lk
        · left
          have hqp : q = p := by rw [hnn, hlk, hq] at hp; cases hp; rfl
          have hlp : leaf = p := by
            unfold getPage at hleaf
            rw [if_neg hr, hq] at hleaf
            cases hleaf; exact hqp
          subst hlp
          have hh : f.hit = false := by
            rw [hcl] at hx; simpa using hx
          rw [hh] at hd
          rw [hnn] at hn1; rw [hn1] at hp1; cases hp1
          simp only [Bool.false_eq_true, if_false, Res.ok.injEq] at hd
          exact ⟨hnn, hd.symm, hb1⟩
        · exact .inr hnn
      · right
        have hnone : t.getDirty (path.getLastD 0) = none := by simpa using hcl
        obtain ⟨q, hq, hlk⟩ := k3 hnone
        rw [hlk, hno _ hfp hnone _ hq]
        rintro rfl; rw [hnone] at hp; cases hp
    have hkept : (t1.setDirty lk d.2).getDirty no = some p := by
      rw [getDirty_setDirty]
      rcases key2 with ⟨rfl, rfl, -⟩ | hh
      · rw [if_pos rfl]
      · rw [if_neg hh]; exact hn1
    split at h
    · obtain ⟨r, hins, h⟩ := Res.bind_eq_ok.1 h
      obtain ⟨rs, rp⟩ := r
      cases rs with
      | ok =>
        cases h
        rw [getDirty_setDirty]
        rcases key2 with ⟨rfl, rfl, hi⟩ | hh
        · rw [if_pos rfl]
          obtain ⟨a, b, c⟩ := insert_above wf hlf hi hs hins
          exact ⟨rp, rfl, .inl ⟨a, b, c⟩⟩
        · rw [if_neg hh]; exact same hkept
      | inval => cases h; exact same hkept
      | nospc =>
        simp only [] at h
        obtain ⟨r, hsp, h⟩ := Res.bind_eq_ok.1 h
        have h := (Prod.mk.inj (Res.ok.inj h)).2
        change (withRoot r).2 = t' at h
        subst h
        rw [withRoot_dirty]
        obtain ⟨p', c1, c2⟩ := pageSplit_from hal (t := t1.setDirty lk d.2) kf hkept wf hlf (by show no ≤ t1.newLast; omega) (by show t1.newLast + 1 < _; omega) hs
          (fun hm => by
            obtain ⟨q, q1, q2⟩ := hbr no hm
            unfold getPage at q1
            rw [if_neg hr, hp] at q1
            cases q1; rw [hlf] at q2; cases q2) hsp
        refine ⟨p', c1, ?_⟩
        rcases c2 with rfl | ⟨-, c2⟩
        · exact .inl (.refl wf)
        · exact .inr c2
    · cases h; exact same hkept

end Verif.Db
