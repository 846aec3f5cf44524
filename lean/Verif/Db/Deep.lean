import Verif.Db.PileProps
import Verif.Db.BulkSave

/-!
# C138: a database that takes no more keys

`put` and `del` go down at most 32 levels (napr_db_tree.c L838-904, `MAX_TREE_DEPTH`).  A branch page that has room for two keys only is split into one with one entry and one with two, which is
full again; so with long keys in ascending order every `put` makes the tree one level deeper.
-/

namespace Verif.Db

open Verif.Page

/-- Every way from page `n` leads through `d` branch pages, none of them empty. -/
def Pile.deep (s : Pile) : Nat → Nat → Bool
  | 0, _ => true
  | d + 1, n =>
    match s.get n with
    | none => false
    | some a => decide (n ≤ s.last) && !a.leaf && !a.its.isEmpty && a.its.all fun it => Pile.deep s d it.child

theorem down_some {p : Page} {a : Sheet} (h : Rep p a) (hl : a.leaf = false) {key : Bytes} (hk : key.length < 65536) (hne : a.its ≠ []) :
    ∃ it ∈ a.its, (childIdx p key >>= child p) = .ok it.child := by
  rw [down_rep h hl hk]
  have hpos : 0 < a.its.length := List.length_pos_iff.2 hne
  split
  · rename_i hg
    have hidx : ∀ i, (if a.its.length ≤ i then a.its.length - 1 else i) < a.its.length := by intro i; split <;> omega
    exact absurd (List.getElem?_eq_none_iff.1 hg) (Nat.not_le.2 (hidx _))
  · rename_i it hg
    exact ⟨it, List.mem_of_getElem? hg, rfl⟩

theorem Seen.deep {env : Env} {s : Pile} {t : Txn} (R : Seen env s t) (hl : s.last ≤ maxPgno env t) {key : Bytes} (hk : key.length < 65536) :
    ∀ (d n : Nat), s.deep d n = true → findPath env t key d n = .ok (.error .general) := by
  intro d
  induction d with
  | zero => intro n _; rfl
  | succ d ih =>
    intro n h
    rw [Pile.deep] at h
    cases ha : s.get n with
    | none => rw [ha] at h; cases h
    | some a =>
      rw [ha] at h
      simp only [Bool.and_eq_true, decide_eq_true_eq, Bool.not_eq_true'] at h
      obtain ⟨⟨⟨hn, hlf⟩, hne⟩, hall⟩ := h
      obtain ⟨p, hp, hr⟩ := R.page n a ha
      have hne' : a.its ≠ [] := by intro e; rw [e] at hne; cases hne
      obtain ⟨it, hit, hdn⟩ := down_some hr hlf hk hne'
      obtain ⟨j, hj, hc⟩ := Res.bind_eq_ok.1 hdn
      have e := ih _ (List.all_eq_true.1 hall it hit)
      rw [findPath, if_neg (by omega), hp, Res.ok_bind, if_neg (by rw [hr.kind, hlf]; simp), hr.wf.not_leaf (hr.kind.trans hlf), if_neg (by simp), hj, Res.ok_bind, hc, Res.ok_bind, e,
        Res.ok_bind]

/-- A transaction on pages so deep refuses every `put` and every `del`, and nothing changes. -/
theorem Seen.shut {env : Env} {s : Pile} {t : Txn} (R : Seen env s t) (hl : s.last ≤ maxPgno env t) (hw : t.rdonly = false) (h0 : s.root ≠ 0) (hd : s.deep 32 s.root = true) {key : Bytes}
    (hk : key.length < 65536) (val : Bytes) (fuel : Nat) : put env fuel t key val = .ok (.general, t) ∧ del env t key = .ok (.general, t) := by
  have e := R.deep hl hk maxDepth s.root hd
  constructor
  · unfold put putWith
    rw [if_neg (by simp [hw]), R.root, if_neg h0, e, Res.ok_bind]
  · unfold del
    rw [if_neg (by simp [hw]), R.root, if_neg h0, e, Res.ok_bind]

/-- The commit of a transaction as the pile says, seen by the next write transaction. -/
theorem Piled.commit_write {env : Env} {s : Pile} {t : Txn} (R : Piled s t) (hd : t.dirty ≠ []) (hl : metaLast env.liveMeta < env.filePages) (h2 : 2 ≤ env.filePages)
    (hm : t.newLast < env.mapPages) (h64 : s.root < 2 ^ 64) (hl64 : s.last < 2 ^ 64) (fuel : Nat) :
    ∃ env' env2 t2, Verif.Db.commit env fuel t = .ok (.success, env') ∧ beginWrite env' = some (env2, t2) ∧ t2.rdonly = false ∧ t2.newLast = s.last ∧ Seen env2 s t2 := by
  have hcommit : Verif.Db.commit env fuel t = .ok (.success, committed env t s.root 0) := by
    unfold Verif.Db.commit commitWith
    rw [if_neg hd]
    unfold commitActs populate
    rw [if_pos R.freed, Res.ok_bind]
    simp only []
    rw [clean_remap R.clean, Res.ok_bind, Res.ok_bind, clean_newPgno R.clean, R.root, R.free]
    rfl
  obtain ⟨a0, -, a1, -, a3, -⟩ := committed_file (root := s.root) (free := 0) R.clean (by simp) (by simp) hl h2
  have hlive : (committed env t s.root 0).liveMeta = metaPage t.txnid s.root t.newLast 0 := a0
  refine ⟨_, _, _, hcommit, rfl, rfl, ?_, ?_, fun n a hn => ?_⟩
  · show metaLast _ = _
    rw [hlive, metaPage_last, R.last, Nat.mod_eq_of_lt hl64]
  · show metaRoot _ = _
    rw [hlive, metaPage_root, Nat.mod_eq_of_lt h64]
  · obtain ⟨p, hp, -, hr⟩ := R.page n a hn
    refine ⟨p, ?_, hr⟩
    have hmp : (committed env t s.root 0).mapPages = env.mapPages := (runActs_kept _ _).map
    have hlo := R.low n a hn
    rw [← R.last] at hlo
    show mapPage (committed env t s.root 0) n = _
    unfold mapPage
    rw [hmp, if_pos ⟨by omega, by omega⟩, a1 n p hp]

/-- The page that `d` steps to the first child lead to, as the descent of napr_db_cursor.c L155-193 makes them. -/
def Pile.edge (s : Pile) : Nat → Nat → Option Nat
  | 0, n => some n
  | d + 1, n =>
    match s.get n with
    | none => none
    | some a =>
      if a.leaf then none
      else match a.its with
        | [] => none
        | it :: _ => Pile.edge s d it.child

theorem Seen.step {env : Env} {s : Pile} {t : Txn} (R : Seen env s t) {n : Nat} {a : Sheet} {it : Item} {l : List Item} (ha : s.get n = some a) (hlf : a.leaf = false) (hi : a.its = it :: l)
    (st : List (Page × Nat)) (hst : st.length < 32) :
    ∃ p, Rep p a ∧ child p 0 = .ok it.child ∧ ∀ fuel, seekDown env t .first (fuel + 1) st n = seekDown env t .first fuel ((p, 0) :: st) it.child := by
  obtain ⟨p, hp, hr⟩ := R.page n a ha
  have hc : child p 0 = .ok it.child := child_rep hr hlf (by rw [hi]; rfl)
  refine ⟨p, hr, hc, fun fuel => ?_⟩
  rw [seekDown, hp, Res.ok_bind, if_neg (by rw [hr.kind, hlf]; simp), hr.wf.not_leaf (hr.kind.trans hlf), if_neg (by simp)]
  show (Res.ok 0 >>= _) = _
  rw [Res.ok_bind, hc, Res.ok_bind, push, if_pos (show st.length < maxDepth from hst)]

theorem Seen.edge {env : Env} {s : Pile} {t : Txn} (R : Seen env s t) : ∀ (d n : Nat) {m : Nat} (st : List (Page × Nat)), s.edge d n = some m → st.length + d ≤ 32 →
    ∃ st', st'.length = st.length + d ∧ ∀ fuel, seekDown env t .first (fuel + d) st n = seekDown env t .first fuel st' m := by
  intro d
  induction d with
  | zero => intro n m st h _; cases h; exact ⟨st, rfl, fun fuel => rfl⟩
  | succ d ih =>
    intro n m st h hst
    rw [Pile.edge] at h
    cases ha : s.get n with
    | none => rw [ha] at h; cases h
    | some a =>
      rw [ha] at h
      simp only [] at h
      split at h
      · cases h
      · rename_i hlf
        cases hi : a.its with
        | nil => rw [hi] at h; cases h
        | cons it l =>
          rw [hi] at h
          obtain ⟨p, -, -, e⟩ := R.step ha (by simpa using hlf) hi st (by omega)
          obtain ⟨st', hl, e'⟩ := ih it.child ((p, 0) :: st) h (by simp only [List.length_cons]; omega)
          refine ⟨st', by rw [hl, List.length_cons]; omega, fun fuel => ?_⟩
          rw [show fuel + (d + 1) = fuel + d + 1 by omega, e, e']

/-- The entry of a branch page that leads to page 2, read as the entry of a leaf. -/
theorem branch_as_leaf {p : Page} (h : child p 0 = .ok 2) : leafNode p 0 = .ok ([0, 0], []) := by
  unfold child at h
  obtain ⟨o, ho, h⟩ := Res.bind_eq_ok.1 h
  obtain ⟨u, hu, h⟩ := Res.bind_eq_ok.1 h
  injection h with h
  have h8 : o + 8 ≤ 4096 := by
    unfold chk at hu
    split at hu
    · rename_i hle; exact hle
    · cases hu
  have zz : ∀ x : UInt8, x.toNat = 0 → x = 0 := fun x hx => UInt8.toNat_inj.1 hx
  have hs : ∀ o n, ule p o (n + 1) = 0 → (p o).toNat = 0 ∧ ule p (o + 1) n = 0 := by
    intro o n h
    rw [ule] at h
    omega
  have hf : (p o).toNat = 2 ∧ ule p (o + 1) 7 = 0 := by
    unfold u64 at h
    rw [ule] at h
    have := (p o).toNat_lt
    omega
  obtain ⟨z0, h⟩ := hf
  obtain ⟨z1, h⟩ := hs _ _ h
  obtain ⟨z2, h⟩ := hs _ _ h
  obtain ⟨z3, h⟩ := hs _ _ h
  obtain ⟨y4, h⟩ := hs _ _ h
  obtain ⟨y5, h⟩ := hs _ _ h
  have z4 : p (o + 4) = 0 := zz _ y4
  have z5 : p (o + 5) = 0 := zz _ y5
  have hks : nodeKs p true o = 2 := by show u16 p o = 2; unfold u16; rw [z0, z1]
  have hds : nodeDs p true o = 0 := by show u16 p (o + 2) = 0; unfold u16; rw [show (p (o + 2)).toNat = 0 from z2, show (p (o + 2 + 1)).toNat = 0 from z3]
  unfold leafNode
  rw [ho, Res.ok_bind, hks, hds]
  have c1 : chk o 4 = .ok () := by unfold chk; rw [if_pos (show o + 4 ≤ pageSize by unfold pageSize; omega)]
  have c2 : chk (o + 4) (2 + 0) = .ok () := by unfold chk; rw [if_pos (show o + 4 + (2 + 0) ≤ pageSize by unfold pageSize; omega)]
  rw [c1, Res.ok_bind]
  simp only []
  rw [c2, Res.ok_bind]
  show Res.ok ([p (o + 4 + 0), p (o + 4 + 1)], ([] : Bytes)) = _
  rw [show o + 4 + 0 = o + 4 from rfl, show o + 4 + 1 = o + 5 from rfl, z4, z5]

/-- The first leaf is page 2, below 32 branch pages, so that `cursor_push` (napr_db_cursor.c L83-90) drops it. -/
def Pile.below (s : Pile) : Bool :=
  match s.edge 31 s.root with
  | none => false
  | some m =>
    match s.get m, s.get 2 with
    | some a, some b => !a.leaf && b.leaf && (match a.its with | [] => false | it :: _ => decide (it.child = 2))
    | _, _ => false

/-- A cursor has no place for the leaf then and takes the last branch page for it. -/
theorem Seen.first_below {env : Env} {s : Pile} {t : Txn} (R : Seen env s t) (h0 : s.root ≠ 0) (hb : s.below = true) :
    ∃ cur, ∀ fuel c, cursorGet env t (fuel + 33) c (.seek .first) = .ok (cur, .ok ([0, 0], [])) := by
  unfold Pile.below at hb
  cases hm : s.edge 31 s.root with
  | none => rw [hm] at hb; cases hb
  | some m =>
    rw [hm] at hb
    simp only [] at hb
    split at hb
    · rename_i a b ha h2
      simp only [Bool.and_eq_true, Bool.not_eq_true'] at hb
      obtain ⟨⟨hlf, hl2⟩, hc2⟩ := hb
      cases hi : a.its with
      | nil => rw [hi] at hc2; cases hc2
      | cons it l =>
        rw [hi] at hc2
        have hc2 : it.child = 2 := by simpa using hc2
        obtain ⟨st', hl, e⟩ := R.edge 31 s.root [] hm (by simp)
        obtain ⟨p, hr, hc, e'⟩ := R.step ha hlf hi st' (by rw [hl]; simp)
        obtain ⟨q, hq, hrq⟩ := R.page 2 b h2
        rw [hc2] at hc e'
        have hn : numKeys p ≠ 0 := by rw [hr.len, hi]; simp
        refine ⟨⟨(p, 0) :: st', false⟩, fun fuel c => ?_⟩
        have hdown : seekDown env t .first (fuel + 33) [] t.root = .ok (.success, (p, 0) :: st') := by
          rw [R.root, show fuel + 33 = fuel + 2 + 31 by omega, e, e', seekDown, hq, Res.ok_bind, if_pos (hrq.kind.trans hl2), push, if_neg (by rw [List.length_cons, hl]; decide)]
        have hseek : seek env t (fuel + 33) .first = .ok (.success, ⟨(p, 0) :: st', false⟩) := by
          unfold seek
          rw [R.root, if_neg h0, ← R.root, hdown, Res.ok_bind]
          simp only [if_true]
          show (Res.ok (some 0) >>= _) = _
          rw [Res.ok_bind]
          simp only []
          rw [if_neg hn]
        have hat : atCursor ⟨(p, 0) :: st', false⟩ = .ok (.ok ([0, 0], [])) := by
          unfold atCursor
          simp only [Bool.false_eq_true, if_false]
          rw [if_neg (by omega), branch_as_leaf hc, Res.ok_bind]
        unfold cursorGet
        show (seek env t (fuel + 33) .first >>= _) = _
        rw [hseek, Res.ok_bind]
        simp only [if_true]
        rw [hat, Res.ok_bind]
    · cases hb

/-! ### The witness -/

/-- Keys of 1500 bytes, in ascending order: paths of six names of 249 bytes, which differ in the first character after the root. -/
def tallKey (i : Nat) : Bytes := 47 :: UInt8.ofNat (48 + i) :: (List.replicate 248 120 ++ (List.replicate 5 (47 :: List.replicate 249 120)).flatten)

/-- What is stored under each: 40 bytes, as many as a record of the cache. -/
def tallVal : Bytes := List.replicate 40 7

/-- 34 such pairs. -/
def tallLoad : List KvOp := (List.range 34).map fun i => .put (tallKey i) tallVal

theorem tallKey_length (i : Nat) : (tallKey i).length = 1500 := by
  unfold tallKey
  rw [List.length_cons, List.length_cons, List.length_append, List.length_replicate, List.length_flatten, List.map_replicate, List.length_cons, List.length_replicate, List.sum_replicate_nat]

/-- What the lists say of the witness. -/
def filled : Bool :=
  match Pile.steps ⟨0, 1, []⟩ tallLoad with
  | none => false
  | some y => decide (y.1 = List.replicate 34 .success) && y.2.root != 0 && decide (y.2.last < 1000) && y.2.deep 32 y.2.root && y.2.below &&
    (List.range 34).all fun i => decide (y.2.find (tallKey i) 34 y.2.root = some (some tallVal))

theorem filled_true : filled = true := by decide +kernel

/-- What is known of the database of the witness. -/
theorem tall_db {mapPages fuel : Nat} (hm : 1000 ≤ mapPages) :
    ∃ s env env1 t t' env' env2 t2, envCreate mapPages = .ok env ∧ beginWrite env = some (env1, t) ∧ steps env1 (fuel + 1) t tallLoad = .ok (List.replicate 34 .success, t') ∧
      commit env1 (fuel + 1) t' = .ok (.success, env') ∧ beginWrite env' = some (env2, t2) ∧ Piled s t' ∧ t2.rdonly = false ∧ t2.newLast = s.last ∧ Seen env2 s t2 ∧
      s.root ≠ 0 ∧ s.last < 1000 ∧ s.deep 32 s.root = true ∧ s.below = true ∧ ∀ i < 34, s.find (tallKey i) 34 s.root = some (some tallVal) := by
  have hf := filled_true
  unfold filled at hf
  cases hy : Pile.steps ⟨0, 1, []⟩ tallLoad with
  | none => rw [hy] at hf; cases hf
  | some y =>
    rw [hy] at hf
    simp only [Bool.and_eq_true, decide_eq_true_eq, bne_iff_ne] at hf
    obtain ⟨⟨⟨⟨⟨d1, h0⟩, d2⟩, d3⟩, d5⟩, d4⟩ := hf
    let env : Env := ⟨fun n => if n = 0 then metaPage 0 0 1 0 else if n = 1 then metaPage 1 0 1 0 else zeroPage, 2, mapPages, 1, false, List.replicate maxReaders noSlot⟩
    have hcreate : envCreate mapPages = .ok env := by unfold envCreate; rw [if_neg (by omega)]
    have hlive : env.liveMeta = metaPage 1 0 1 0 := rfl
    let env1 : Env := { env with locked := true }
    have hbegin : beginWrite env = some (env1, txn0) := by
      unfold beginWrite
      rw [hlive, metaPage_txnid, metaPage_root, metaPage_free, metaPage_last]
      rfl
    obtain ⟨t', e, R, -⟩ := pile_refines (env := env1) (fuel := fuel) piled_txn0 hy
    obtain ⟨a, ha⟩ : ∃ a, y.2.get y.2.root = some a := by
      cases ha : y.2.get y.2.root with
      | none => rw [Pile.deep, ha] at d3; cases d3
      | some a => exact ⟨a, rfl⟩
    have hroot : y.2.root ≤ y.2.last := (R.low _ _ ha).2
    have hd : t'.dirty ≠ [] := by
      obtain ⟨p, hp, -⟩ := R.page _ _ ha
      intro e
      unfold Txn.getDirty at hp
      rw [e] at hp; cases hp
    obtain ⟨env', env2, t2, hc, hb2, hw2, hl2, hs2⟩ := R.commit_write (env := env1) hd (by show metaLast env.liveMeta < 2; rw [hlive, metaPage_last]; decide) (Nat.le_refl 2)
      (by rw [R.last]; show y.2.last < mapPages; omega) (by omega) (by omega) (fuel + 1)
    exact ⟨y.2, env, env1, txn0, t', env', env2, t2, hcreate, hbegin, by rw [e, d1], hc, hb2, R, hw2, hl2, hs2, h0, d2, d3, d5,
      fun i hi => of_decide_eq_true (List.all_eq_true.1 d4 i (List.mem_range.2 hi))⟩

/-- **C138** is false: 34 pairs with keys of 1500 bytes, put into a new database in ascending order, all with success, need less than 1000 pages; from then on every `put` and every `del`, of any
key, fails with a general error, however large the map is, in this transaction and, once it is committed, in the next.  The pairs themselves are still found. -/
theorem long_keys_fill {mapPages fuel : Nat} (hm : 1000 ≤ mapPages) :
    ∃ env env1 t t' env' env2 t2, envCreate mapPages = .ok env ∧ beginWrite env = some (env1, t) ∧ steps env1 (fuel + 1) t tallLoad = .ok (List.replicate 34 .success, t') ∧ t'.newLast < 1000 ∧
      (∀ key val : Bytes, key.length < 65536 → ∀ f, put env1 f t' key val = .ok (.general, t') ∧ del env1 t' key = .ok (.general, t')) ∧
      commit env1 (fuel + 1) t' = .ok (.success, env') ∧ beginWrite env' = some (env2, t2) ∧ (∀ i < 34, get env2 t2 34 (tallKey i) = .ok (.ok tallVal)) ∧
      ∀ key val : Bytes, key.length < 65536 → ∀ f, put env2 f t2 key val = .ok (.general, t2) ∧ del env2 t2 key = .ok (.general, t2) := by
  obtain ⟨s, env, env1, t, t', env', env2, t2, h1, h2, h3, hc, hb2, R, hw2, hl2, hs2, h0, d2, d3, -, d4⟩ := tall_db (fuel := fuel) hm
  refine ⟨env, env1, t, t', env', env2, t2, h1, h2, h3, by rw [R.last]; exact d2, fun key val hk f => ?_, hc, hb2, fun i hi => ?_, fun key val hk f => ?_⟩
  · exact (R.seen env1).shut (by unfold maxPgno; rw [R.rdonly, if_neg (by simp), R.last]; exact Nat.le_refl _) R.rdonly h0 d3 hk val f
  · exact hs2.get (key := tallKey i) (r := some tallVal) (by rw [tallKey_length]; decide) h0 (d4 i hi)
  · exact hs2.shut (by unfold maxPgno; rw [hw2, if_neg (by simp), hl2]; exact Nat.le_refl _) hw2 h0 d3 hk val f

/-- **C45** is false of the same database: a cursor asked for the first pair answers, with success, a key of two bytes that nobody has stored, before and after the commit.  It has room for 32 pages
only, and so reads the entry of a branch page as if it were that of a leaf. -/
theorem cursor_invents_pair {mapPages fuel : Nat} (hm : 1000 ≤ mapPages) :
    ∃ env env1 t t' env' env2 t2 cur cur2, envCreate mapPages = .ok env ∧ beginWrite env = some (env1, t) ∧ steps env1 (fuel + 1) t tallLoad = .ok (List.replicate 34 .success, t') ∧
      (∀ f c, cursorGet env1 t' (f + 33) c (.seek .first) = .ok (cur, .ok ([0, 0], []))) ∧
      commit env1 (fuel + 1) t' = .ok (.success, env') ∧ beginWrite env' = some (env2, t2) ∧
      (∀ f c, cursorGet env2 t2 (f + 33) c (.seek .first) = .ok (cur2, .ok ([0, 0], []))) ∧ ∀ v, KvOp.put [0, 0] v ∉ tallLoad := by
  obtain ⟨s, env, env1, t, t', env', env2, t2, h1, h2, h3, hc, hb2, R, -, -, hs2, h0, -, -, hb, -⟩ := tall_db (fuel := fuel) hm
  obtain ⟨cur, e1⟩ := (R.seen env1).first_below h0 hb
  obtain ⟨cur2, e2⟩ := hs2.first_below h0 hb
  refine ⟨env, env1, t, t', env', env2, t2, cur, cur2, h1, h2, h3, e1, hc, hb2, e2, fun v hv => ?_⟩
  unfold tallLoad at hv
  obtain ⟨i, -, e⟩ := List.mem_map.1 hv
  injection e with e _
  have := congrArg List.length e
  rw [tallKey_length] at this
  cases this

end Verif.Db
