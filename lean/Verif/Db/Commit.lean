import Verif.Db.TxnLemmas
import Verif.Db.TxnSpec

/-!
# Helper lemmas: meta pages, the file operations of a commit, the Free DB entry
-/

namespace Verif.Db

open Verif.Page

/-! ## Meta pages -/

theorem u64_put64_out {p : Page} {o v a : Nat} (h : a + 8 ≤ o ∨ o + 8 ≤ a) : u64 (put64 p o v) a = u64 p a :=
  u64_congr fun i hi => put64_out (by omega)

theorem ule_put64_out {p : Page} {o v a n : Nat} (h : a + n ≤ o ∨ o + 8 ≤ a) : ule (put64 p o v) a n = ule p a n :=
  ule_congr fun i hi => put64_out (by omega)

theorem metaPage_txnid (a b c d : Nat) : metaTxnid (metaPage a b c d) = a % 2 ^ 64 := by
  unfold metaTxnid metaPage
  rw [u64_put64_out (by omega), u64_put64_out (by omega), u64_put64_out (by omega), u64_put64]

theorem metaPage_root (a b c d : Nat) : metaRoot (metaPage a b c d) = b % 2 ^ 64 := by
  unfold metaRoot metaPage
  rw [u64_put64_out (by omega), u64_put64_out (by omega), u64_put64]

theorem metaPage_last (a b c d : Nat) : metaLast (metaPage a b c d) = c % 2 ^ 64 := by
  unfold metaLast metaPage
  rw [u64_put64_out (by omega), u64_put64]

theorem metaPage_free (a b c d : Nat) : metaFree (metaPage a b c d) = d % 2 ^ 64 := by
  unfold metaFree metaPage
  rw [u64_put64]

theorem metaPage_valid (a b c d : Nat) : validMeta (metaPage a b c d) = true := by
  unfold validMeta metaPage
  rw [ule_put64_out (by omega), ule_put64_out (by omega), ule_put64_out (by omega), ule_put64_out (by omega),
    ule_put64_out (by omega), ule_put64_out (by omega), ule_put64_out (by omega), ule_put64_out (by omega), ule_le]
  rw [show ule (blit (blit zeroPage 0 (le 4 dbMagic)) 4 (le 4 dbVersion)) 0 4 = ule (blit zeroPage 0 (le 4 dbMagic)) 0 4 from
    ule_congr fun i hi => blit_out (by omega), ule_le]
  decide

/-! ## Child pointers -/

theorem le_ule (p : Page) (n : Nat) : ∀ o, le n (ule p o n) = slice p o n := by
  induction n with
  | zero => intro o; rfl
  | succ n ih =>
    intro o
    have h1 := (p o).toNat_lt
    rw [ule, le, show slice p o (n + 1) = p o :: slice p (o + 1) n by
      rw [Nat.add_comm n 1, slice_append]; simp [slice]]
    congr 1
    · apply UInt8.toNat_inj.1
      simp
    · rw [show ((p o).toNat + 256 * ule p (o + 1) n) / 256 = ule p (o + 1) n by omega, ih]

theorem put64_same (p : Page) (o : Nat) : put64 p o (u64 p o) = p := by
  funext j
  unfold put64 u64
  rw [le_ule]
  by_cases h : o ≤ j ∧ j < o + 8
  · rw [blit_in h.1 (by simpa using h.2)]
    rw [List.getD_eq_getElem?_getD, List.getElem?_eq_getElem (by simp; omega), slice_getElem]
    simp only [Option.getD_some]; congr 1; omega
  · exact blit_out (by simp; omega)

theorem remapFrom_id {m : Nat → Nat} (hm : ∀ n, m n = n) {p : Page} (wf : WF p) (hl : isLeaf p = false) (k : Nat) :
    ∀ {i : Nat}, i + k ≤ numKeys p → remapFrom m p i k = .ok p := by
  induction k with
  | zero => intro i _; rfl
  | succ k ih =>
    intro i hi
    have h1 := wf.inside i (by omega)
    have h2 := wf.low
    have h3 := wf.gap
    have h4 := wf.top
    have h5 : 8 ≤ nodeSize p (isLeaf p) (slot p i) := by rw [hl]; unfold nodeSize baseSize; simp only [Bool.false_eq_true, if_false]; omega
    unfold hdrSize at h2
    have : rdSlot p i = .ok (slot p i) := by
      unfold rdSlot; rw [chk_ok (by unfold hdrSize; omega)]; rfl
    rw [remapFrom, this, Res.ok_bind, chk_ok (by omega), Res.ok_bind, hm, put64_same, ih (by omega)]

theorem remap_id {m : Nat → Nat} (hm : ∀ n, m n = n) {p : Page} (wf : WF p) : remap m p = .ok p := by
  unfold remap
  cases h : isBranch p with
  | false => simp
  | true =>
    rw [if_pos rfl]
    apply remapFrom_id hm wf _ _ (by omega)
    rcases wf.kind with hk | hk <;> simp [isBranch, isLeaf, hk] at h ⊢

theorem remapAll_id {m : Nat → Nat} (hm : ∀ n, m n = n) (l : List (Nat × Page)) (h : ∀ e ∈ l, WF e.2 ∧ pgno e.2 = e.1) :
    remapAll m l = .ok l := by
  induction l with
  | nil => rfl
  | cons e l ih =>
    obtain ⟨a, b⟩ := h e List.mem_cons_self
    rw [remapAll, remap_id hm a, Res.ok_bind, ih fun e he => h e (List.mem_cons_of_mem _ he), Res.ok_bind, b]

/-! ## File operations -/

theorem runActs_append (env : Env) (a b : List Act) : runActs env (a ++ b) = runActs (runActs env a) b := by
  simp [runActs, List.foldl_append]

theorem runActs_cons (env : Env) (a : Act) (b : List Act) : runActs env (a :: b) = runActs (a.run env) b := rfl

/-- What file operations leave alone. -/
structure Kept (env env' : Env) : Prop where
  map : env'.mapPages = env.mapPages
  live : env'.live = env.live
  locked : env'.locked = env.locked
  readers : env'.readers = env.readers
  file : env.filePages ≤ env'.filePages

theorem Kept.trans {a b c : Env} (h : Kept a b) (h' : Kept b c) : Kept a c :=
  ⟨h'.map.trans h.map, h'.live.trans h.live, h'.locked.trans h.locked, h'.readers.trans h.readers, Nat.le_trans h.file h'.file⟩

theorem grow_kept (env : Env) (k : Nat) : Kept env (growFile env k) := by
  unfold growFile
  split
  · exact ⟨rfl, rfl, rfl, rfl, by simp only []; omega⟩
  · exact ⟨rfl, rfl, rfl, rfl, Nat.le_refl _⟩

theorem grow_size (env : Env) (k : Nat) : k ≤ (growFile env k).filePages := by
  unfold growFile
  split
  · exact Nat.le_refl _
  · omega

theorem grow_file (env : Env) (k : Nat) {n : Nat} (h : n < env.filePages) : (growFile env k).file n = env.file n := by
  unfold growFile
  split
  · simp only []; rw [if_pos h]
  · rfl

theorem run_kept (env : Env) (a : Act) : Kept env (a.run env) := by
  cases a with
  | grow k => exact grow_kept env k
  | write n p =>
    have := grow_kept env (n + 1)
    exact ⟨this.map, this.live, this.locked, this.readers, this.file⟩
  | sync => exact ⟨rfl, rfl, rfl, rfl, Nat.le_refl _⟩

theorem runActs_kept (acts : List Act) : ∀ env, Kept env (runActs env acts) := by
  induction acts with
  | nil => intro env; exact ⟨rfl, rfl, rfl, rfl, Nat.le_refl _⟩
  | cons a acts ih => intro env; exact (run_kept env a).trans (ih _)

theorem untouched (acts : List Act) : ∀ {env : Env} {n : Nat}, n < env.filePages → (∀ p, Act.write n p ∉ acts) →
    (runActs env acts).file n = env.file n := by
  induction acts with
  | nil => intro env n _ _; rfl
  | cons a acts ih =>
    intro env n hn h
    rw [runActs_cons, ih (Nat.lt_of_lt_of_le hn (run_kept env a).file) fun p hp => h p (List.mem_cons_of_mem _ hp)]
    cases a with
    | grow k => exact grow_file env k hn
    | write m p =>
      show (if n = m then p else (growFile env (m + 1)).file n) = _
      rw [if_neg (by rintro rfl; exact h p List.mem_cons_self), grow_file env _ hn]
    | sync => rfl

theorem written {A B : List Act} {env : Env} {n : Nat} {p : Page} (h : ∀ q, Act.write n q ∉ B) :
    (runActs env (A ++ Act.write n p :: B)).file n = p ∧ n < (runActs env (A ++ Act.write n p :: B)).filePages := by
  rw [runActs_append, runActs_cons]
  have hs : n < (writeFile (runActs env A) n p).filePages := by
    have := grow_size (runActs env A) (n + 1)
    show n < (growFile (runActs env A) (n + 1)).filePages
    omega
  constructor
  · rw [untouched B (env := Act.run (runActs env A) (Act.write n p)) hs h]
    show (if n = n then p else _) = p
    rw [if_pos rfl]
  · exact Nat.lt_of_lt_of_le hs (runActs_kept B _).file

/-- The operations of a commit whose page map is the identity. -/
def allActs (env : Env) (t : Txn) (root free : Nat) : List Act :=
  extendActs env t ++ writeActs t.dirty ++ metaActs env t root free

/-- The environment after such a commit. -/
def committed (env : Env) (t : Txn) (root free : Nat) : Env :=
  { runActs env (allActs env t root free) with locked := false, live := staleMeta env }

theorem mem_extendActs {env : Env} {t : Txn} {n : Nat} {p : Page} : Act.write n p ∉ extendActs env t := by
  unfold extendActs
  split
  · split <;> simp
  · simp

theorem mem_writeActs {l : List (Nat × Page)} {n : Nat} {p : Page} : Act.write n p ∈ writeActs l ↔ (n, p) ∈ l := by
  unfold writeActs
  rw [List.mem_append, List.mem_map]
  constructor
  · rintro (⟨e, he, h⟩ | h)
    · cases h; exact he
    · simp at h
  · intro h; exact .inl ⟨_, h, rfl⟩

theorem getDirty_mem {t : Txn} (hn : (t.dirty.map Prod.fst).Nodup) {n : Nat} {p : Page} : t.getDirty n = some p ↔ (n, p) ∈ t.dirty := by
  unfold Txn.getDirty
  generalize t.dirty = l at hn
  induction l with
  | nil => simp
  | cons e l ih =>
    obtain ⟨m, q⟩ := e
    simp only [List.map_cons, List.nodup_cons] at hn
    rw [List.lookup_cons]
    by_cases h : n = m
    · subst h
      simp only [beq_self_eq_true, Option.some.injEq, List.mem_cons, Prod.mk.injEq, true_and]
      constructor
      · rintro rfl; exact .inl rfl
      · rintro (rfl | h)
        · rfl
        · exact absurd (List.mem_map_of_mem (f := Prod.fst) h) hn.1
    · rw [show (n == m) = false by simpa using h]
      simp only [ih hn.2, List.mem_cons, Prod.mk.injEq, h, false_and, false_or]

theorem clean_newPgno {id fr : Nat} {F : List Nat} {t : Txn} (h : Clean id fr F t) (n : Nat) : newPgno t n = n := by
  unfold newPgno
  cases hd : t.getDirty n with
  | none => rfl
  | some p => exact (h.dirty n p hd).2.1

theorem clean_remap {id fr : Nat} {F : List Nat} {t : Txn} (h : Clean id fr F t) : remapAll (newPgno t) t.dirty = .ok t.dirty :=
  remapAll_id (clean_newPgno h) _ fun e he => by
    have := h.dirty e.1 e.2 ((getDirty_mem h.nodup).2 he)
    exact ⟨this.2.2.1, this.2.1⟩

theorem stale_lt (env : Env) : staleMeta env < 2 := by unfold staleMeta; split <;> omega

theorem stale_ne (env : Env) : staleMeta env ≠ env.live := by unfold staleMeta; split <;> omega

/-- What is in the file after a commit. -/
theorem committed_file {env : Env} {t : Txn} {id fr root free : Nat} {F : List Nat} (hc : Clean id fr F t) (h0 : 0 ∈ F) (h1 : 1 ∈ F)
    (hl : metaLast env.liveMeta < env.filePages) (h2 : 2 ≤ env.filePages) :
    (committed env t root free).file (staleMeta env) = metaPage t.txnid root t.newLast free ∧
    (env.live < 2 → (committed env t root free).file env.live = env.file env.live) ∧
    (∀ n p, t.getDirty n = some p → (committed env t root free).file n = p) ∧
    (∀ n, n < env.filePages → 2 ≤ n → t.getDirty n = none → (committed env t root free).file n = env.file n) ∧
    t.newLast < (committed env t root free).filePages ∧ env.filePages ≤ (committed env t root free).filePages := by
  have dlow : ∀ n p, (n, p) ∈ t.dirty → 2 ≤ n := by
    intro n p hm
    have := (hc.dirty n p ((getDirty_mem hc.nodup).2 hm)).1
    have a : n ≠ 0 := by rintro rfl; exact this h0
    have b : n ≠ 1 := by rintro rfl; exact this h1
    omega
  have hs := stale_lt env
  refine ⟨?_, ?_, ?_, ?_, ?_, ?_⟩
  · have := written (env := env) (A := extendActs env t ++ writeActs t.dirty) (n := staleMeta env) (p := metaPage t.txnid root t.newLast free)
      (B := [.sync]) (by simp)
    exact this.1
  · intro hlive
    refine untouched _ (by omega) ?_
    intro p hp
    unfold allActs metaActs at hp
    rw [List.mem_append, List.mem_append, mem_writeActs] at hp
    rcases hp with (hp | hp) | hp
    · exact mem_extendActs hp
    · have := dlow _ _ hp; omega
    · simp at hp; exact stale_ne env hp.1.symm
  · intro n p hp
    have hp' := (getDirty_mem hc.nodup).1 hp
    obtain ⟨A, B, e⟩ := List.append_of_mem hp'
    have hB : ∀ q, (n, q) ∉ B := by
      intro q hq
      have := hc.nodup
      rw [e] at this
      simp only [List.map_append, List.map_cons, List.nodup_append, List.nodup_cons] at this
      exact this.2.1.1 (List.mem_map_of_mem (f := Prod.fst) hq)
    have := written (env := env) (A := extendActs env t ++ A.map fun e => Act.write e.1 e.2) (n := n) (p := p)
      (B := (B.map fun e => Act.write e.1 e.2) ++ [.sync] ++ metaActs env t root free) (by
        intro q hq
        rw [List.append_assoc, List.mem_append, List.mem_map] at hq
        rcases hq with ⟨x, hx, e⟩ | hq
        · cases e; exact hB _ hx
        · have := dlow _ _ hp'
          simp [metaActs] at hq; omega)
    have e2 : allActs env t root free = extendActs env t ++ (A.map fun e => Act.write e.1 e.2) ++ Act.write n p ::
        ((B.map fun e => Act.write e.1 e.2) ++ [.sync] ++ metaActs env t root free) := by
      unfold allActs writeActs; rw [e]; simp
    show (runActs env (allActs env t root free)).file n = p
    rw [e2]; exact this.1
  · intro n hn hn2 hd
    refine untouched _ hn ?_
    intro p hp
    unfold allActs metaActs at hp
    rw [List.mem_append, List.mem_append, mem_writeActs] at hp
    rcases hp with (hp | hp) | hp
    · exact mem_extendActs hp
    · rw [(getDirty_mem hc.nodup).2 hp] at hd; cases hd
    · simp at hp; omega
  · show t.newLast < (runActs env (allActs env t root free)).filePages
    unfold allActs
    rw [List.append_assoc, runActs_append]
    refine Nat.lt_of_lt_of_le ?_ (runActs_kept _ _).file
    unfold extendActs
    split
    · split
      · exact grow_size env (t.newLast + 1)
      · show _ < env.filePages; omega
    · show _ < env.filePages; omega
  · exact (runActs_kept _ _).file

theorem committed_view {env : Env} {t : Txn} {id fr root free : Nat} {F : List Nat} (hc : Clean id fr F t) (h0 : 0 ∈ F) (h1 : 1 ∈ F)
    (hl : metaLast env.liveMeta < env.filePages) (h2 : 2 ≤ env.filePages) (hm : t.newLast < env.mapPages) {x : Nat} (hx : 2 ≤ x)
    {p : Page} (hg : getPage env t x = .ok p) : mapPage (committed env t root free) x = .ok p := by
  obtain ⟨-, -, a1, a2, a3, a4⟩ := committed_file (root := root) (free := free) hc h0 h1 hl h2
  have hmp : (committed env t root free).mapPages = env.mapPages := (runActs_kept _ _).map
  unfold getPage at hg
  rw [hc.rdonly] at hg
  simp only [Bool.false_eq_true, if_false] at hg
  cases hd : t.getDirty x with
  | some q =>
    rw [hd] at hg; cases hg
    have := (hc.dirty x p hd).2.2.2
    unfold mapPage
    rw [hmp, if_pos ⟨by omega, by omega⟩, a1 x p hd]
  | none =>
    rw [hd] at hg
    simp only [] at hg
    unfold mapPage at hg ⊢
    by_cases hb : x < env.mapPages ∧ x < env.filePages
    · rw [if_pos hb] at hg; cases hg
      rw [hmp, if_pos ⟨hb.1, by omega⟩, a2 x hb.2 hx hd]
    · rw [if_neg hb] at hg; cases hg


/-! ## The Free DB entry of a commit -/

theorem leVal_le (n : Nat) : ∀ v, leVal (le n v) = v % 256 ^ n := by
  induction n with
  | zero => intro v; simp [le, leVal, Nat.mod_one]
  | succ n ih =>
    intro v
    rw [le, leVal, ih, show (UInt8.ofNat v).toNat = v % 256 by simp]
    rw [show 256 ^ (n + 1) = 256 * 256 ^ n by rw [Nat.pow_succ, Nat.mul_comm], Nat.mod_mul]

theorem le8_inj {i j : Nat} (hi : i < 2 ^ 64) (hj : j < 2 ^ 64) (h : le 8 i = le 8 j) : i = j := by
  have := congrArg leVal h
  rw [leVal_le, leVal_le, show (256 : Nat) ^ 8 = 2 ^ 64 by decide, Nat.mod_eq_of_lt hi, Nat.mod_eq_of_lt hj] at this
  exact this

theorem flatMap_le_length (l : List Nat) : (l.flatMap (le 8)).length = 8 * l.length := by
  induction l with
  | nil => rfl
  | cons a l ih => rw [List.flatMap_cons, List.length_append, ih, le_length, List.length_cons]; omega

theorem fits_frame {g g' : View} {key : Bytes} {size : Nat} (h : Nat) : ∀ {n : Nat}, (∀ x ∈ pagesOf g h n, g' x = g x) →
    Fits g key size h n → Fits g' key size h n := by
  induction h with
  | zero =>
    intro n ha hf p hp
    rw [ha n (self_mem_pagesOf g 0 n)] at hp
    exact hf p hp
  | succ h ih =>
    intro n ha hf p A k c B hp hr
    have hp' := hp
    rw [ha n (self_mem_pagesOf g _ n)] at hp'
    refine ih (fun x hx => ha x ?_) (hf p A k c B hp' hr)
    rw [pagesOf_succ hp', List.mem_cons]
    right
    rw [List.mem_flatMap]
    exact ⟨(k, c), by rw [hr.1]; simp, hx⟩

theorem freeDb_frame {g g' : View} {hf fr : Nat} {fl : List (Bytes × Bytes)} (h : FreeDb g hf fr fl)
    (ha : ∀ x ∈ treePages g hf fr, g' x = g x) : FreeDb g' hf fr fl ∧ treePages g' hf fr = treePages g hf fr := by
  rcases h with ⟨h0, rfl⟩ | ⟨h0, h1, h2, h3, h4⟩
  · exact ⟨.inl ⟨h0, rfl⟩, by unfold treePages; rw [if_pos h0, if_pos h0]⟩
  · unfold treePages at ha ⊢
    rw [if_neg h0] at ha
    obtain ⟨f1, f2, f3⟩ := frame hf ha
    exact ⟨.inr ⟨h0, f3 _ _ h1, full_frame hf ha h2, by rw [f2]; exact h3, by rw [f1]; exact h4⟩, by rw [if_neg h0, if_neg h0, f2]⟩

/-- What the Free DB needs to take up the freed pages of a transaction: room in a fresh leaf, or in
the leaf where the id belongs. -/
structure FreeRoom (env : Env) (id fr hf : Nat) (t : Txn) : Prop where
  fresh : t.freed ≠ [] → fr = 0 → 8 * t.freed.length + 14 ≤ 4078
  leaf : t.freed ≠ [] → fr ≠ 0 → Fits (mapPage env) (le 8 id) (12 + 8 * t.freed.length) hf fr

theorem populate_spec {al : Alloc} {env : Env} {id fr hf : Nat} {F : List Nat} {t : Txn} {M : List Nat}
    {fl : List (Bytes × Bytes)} (hF : F = 0 :: 1 :: treePages (mapPage env) hf fr) (hc : Clean id fr F t)
    (hM : ∀ x ∈ M, x ∉ F ∧ x ≤ t.newLast) (hfree : FreeDb (mapPage env) hf fr fl) (hlow : ∀ x ∈ treePages (mapPage env) hf fr, 2 ≤ x)
    (hd : hf < maxDepth) (hid : id < 2 ^ 64) (hids : ∀ kv ∈ fl, ∃ i < id, kv.1 = le 8 i)
    (hal : fr = 0 → ∀ t, Clean id fr F t → al t = .ok (extend t)) (hroom : FreeRoom env id fr hf t) (h64 : t.newLast + 1 < 2 ^ 64) :
    ∃ t2 fr' hf' fl', populate al env t = .ok (t2, .ok fr') ∧ Clean id fr [0, 1] t2 ∧ t2.root = t.root ∧ t.newLast ≤ t2.newLast ∧
      t2.newLast ≤ t.newLast + 1 ∧ (∀ x ∈ M, getPage env t2 x = getPage env t x) ∧ FreeDb (getPage env t2) hf' fr' fl' ∧ hf' < maxDepth ∧
      (∀ x ∈ treePages (getPage env t2) hf' fr', 2 ≤ x ∧ x ≤ t2.newLast ∧ x ∉ M) ∧ ∀ kv ∈ fl', kv ∈ fl ∨ kv = (le 8 id, t.freed.flatMap (le 8)) := by
  have h0F : 0 ∈ F := by rw [hF]; simp
  have h1F : 1 ∈ F := by rw [hF]; simp
  have hsub : ∀ x ∈ treePages (mapPage env) hf fr, x ∈ F := fun x hx => by rw [hF]; simp [hx]
  have hview : ∀ x ∈ treePages (mapPage env) hf fr, getPage env t x = mapPage env x := fun x hx => hc.view env (hsub x hx)
  have hc01 : Clean id fr [0, 1] t := hc.mono (by intro x hx; simp at hx; rcases hx with rfl | rfl <;> assumption)
  obtain ⟨g1, g2⟩ := freeDb_frame hfree hview
  unfold populate
  by_cases hfd : t.freed = []
  · rw [if_pos hfd]
    refine ⟨t, t.freeRoot, hf, fl, rfl, hc01, rfl, Nat.le_refl _, by omega, fun _ _ => rfl, ?_, hd, ?_, fun _ h => .inl h⟩
    · rw [hc.free]; exact g1
    · rw [hc.free, g2]
      intro x hx
      exact ⟨hlow x hx, hc.last x (hsub x hx), fun hm => (hM x hm).1 (hsub x hx)⟩
  · rw [if_neg hfd]
    by_cases hf0 : fr = 0
    · rw [if_pos (.inl (hc.free.trans hf0))]
      have hr := hroom.fresh hfd hf0
      have wf := emptyPage_wf true (t.newLast + 1) h64
      have hrm : room (emptyPage true (t.newLast + 1)) = 4078 := by
        obtain ⟨-, -, h1, h2, -⟩ := emptyPage_fields true (t.newLast + 1) h64
        unfold room; rw [h1, h2]
      have hl := emptyPage_isLeaf true (t.newLast + 1) h64
      unfold newTree
      rw [hal hf0 t hc, Res.ok_bind]
      simp only [extend]
      rcases insert_at wf (A := []) (B := []) (by rw [emptyPage_items _ _ h64]; rfl) (it := .leaf (le 8 t.txnid) (t.freed.flatMap (le 8))) (by rw [hl]; rfl)
          (by simp only [Item.size, le_length, flatMap_le_length]; omega) (by simp [Item.child]) with ⟨b1, b2⟩ | ⟨b1, q, b2, b3, b4, b5, b6, b7⟩
      · rw [hrm] at b1; simp only [Item.size, le_length, flatMap_le_length] at b1; omega
      · rw [List.length_nil] at b2
        rw [b2]
        have hn : t.newLast + 1 ∉ [0, 1] := by
          have := hc.last 1 h1F
          simp; omega
        have hpg : pgno q = t.newLast + 1 := by rw [b5, (emptyPage_fields true _ h64).2.2.2.2]
        let t2 := (extend t).2.setDirty (t.newLast + 1) q
        have hv : ∀ x, getPage env t2 x = if x = t.newLast + 1 then .ok q else getPage env t x := by
          intro x
          show getPage env ((extend t).2.setDirty (t.newLast + 1) q) x = _
          rw [getPage_set (t := (extend t).2) hc.rdonly]; rfl
        have hk : kvs q = [(le 8 t.txnid, t.freed.flatMap (le 8))] := by unfold kvs; rw [b4]; rfl
        have hg : getPage env t2 (t.newLast + 1) = .ok q := by rw [hv, if_pos rfl]
        have hcon : contents (getPage env t2) 0 (t.newLast + 1) = [(le 8 t.txnid, t.freed.flatMap (le 8))] := (contents_zero hg).trans hk
        refine ⟨t2, t.newLast + 1, 0, _, rfl, ?_, rfl, ?_, ?_, ?_, .inr ⟨by omega, ?_, ?_, ?_, hcon⟩, by decide, ?_, ?_⟩
        · exact hc01.grow.set hn hpg b3 (Nat.le_refl _)
        · show t.newLast ≤ t.newLast + 1; omega
        · show t.newLast + 1 ≤ t.newLast + 1; omega
        · intro x hx
          have := (hM x hx).2
          rw [hv, if_neg (by omega)]
        · refine ⟨q, hg, hpg, b3, by rw [b6, hl], ?_, fun _ _ => inRange_none _⟩
          rw [keys_eq_kvs, hk]; exact List.pairwise_singleton _ _
        · intro p hp
          rw [hg] at hp; cases hp
          rw [b4]; simp
        · simp [pagesOf]
        · intro x hx
          unfold treePages at hx
          rw [if_neg (by omega)] at hx
          simp only [pagesOf, List.mem_singleton] at hx
          subst hx
          have := hc.last 1 h1F
          refine ⟨by omega, Nat.le_refl _, fun hm => ?_⟩
          have := (hM _ hm).2
          omega
        · intro kv hkv
          simp at hkv
          right; rw [hkv, hc.txnid]
    · have htp : treePages (mapPage env) hf fr = pagesOf (mapPage env) hf fr := by unfold treePages; rw [if_neg hf0]
      have hfrF : fr ∈ F := hsub fr (by rw [htp]; exact self_mem_pagesOf _ _ _)
      rw [if_neg (by
        rw [hc.free]
        rintro (h | h)
        · exact hf0 h
        · unfold maxPgno at h
          rw [hc.rdonly] at h
          have := hc.last fr hfrF
          simp at h; omega)]
      rcases g1 with ⟨hx, -⟩ | ⟨-, k1, k2, k3, k4⟩
      · exact absurd hx hf0
      have hpg : pagesOf (getPage env t) hf fr = pagesOf (mapPage env) hf fr := by
        unfold treePages at g2; rw [if_neg hf0, if_neg hf0] at g2; exact g2
      have hfits := hroom.leaf hfd hf0
      have hkey : le 8 id ∉ fl.map Prod.fst := by
        intro hm
        obtain ⟨kv, h1, h2⟩ := List.mem_map.1 hm
        obtain ⟨i, hi, e⟩ := hids kv h1
        rw [e] at h2
        have := le8_inj (by omega) hid h2
        omega
      have hlen : (t.freed.flatMap (le 8)).length = 8 * t.freed.length := flatMap_le_length _
      have hin : ∀ x ∈ pagesOf (getPage env t) hf fr, x ∈ F := by rw [hpg, ← htp]; exact hsub
      have hfit2 : Fits (getPage env t) (le 8 id) (4 + (le 8 id).length + (t.freed.flatMap (le 8)).length) hf fr := by
        rw [le_length, hlen, show 4 + 8 + 8 * t.freed.length = 12 + 8 * t.freed.length by omega]
        exact fits_frame hf (fun x hx => hview x (by rw [htp]; exact hx)) hfits
      have hszs : 4 + (le 8 id).length + (t.freed.flatMap (le 8)).length < 65536 := by
        obtain ⟨path, p1, -⟩ := findPath_spec (env := env) (t := t) (key := le 8 id) (by simp) hf k1 hd (by
          intro x hx; unfold maxPgno; rw [hc.rdonly]; exact hc.last x (hin x hx))
        obtain ⟨lo', hi', p, A, B, i1, ⟨q, j1, j2, j3, -⟩, -⟩ := leaf_focus hf k1 p1 (inRange_none _)
        rw [i1] at j1; cases j1
        have := fits_path hf hfit2 p1 p i1
        have h1 := j3.top
        unfold pageSize at h1
        unfold room at this
        omega
      obtain ⟨path, t1, p, f, q, a1, a2, a3, a4, a5, a6, a7, a8, a9, a10, a11, a12, a13, a14, a15⟩ :=
        insert_fits (env := env) (t := t) (r := fr) (h := hf) (key := le 8 id) (val := t.freed.flatMap (le 8)) (by simp) hszs
          hc.rdonly k1 (fun x hx => hc.last x (hin x hx)) (by rw [k4]; exact hkey) hd hfit2
      obtain ⟨w1, w2, ⟨X, Y, w3, w4⟩, w5⟩ := a15 k3
      have hlm : path.getLastD 0 ∈ pagesOf (getPage env t) hf fr := by
        refine isPath_mem a3 _ (getLastD_mem ?_)
        obtain ⟨rest, hr, -⟩ := isPath_cons a3
        rw [hr]; simp
      have hnot01 : ∀ x ∈ pagesOf (getPage env t) hf fr, x ∉ [0, 1] ∧ x ≤ t.newLast := by
        intro x hx
        refine ⟨?_, hc.last x (hin x hx)⟩
        have := hlow x (by rw [htp, ← hpg]; exact hx)
        simp; omega
      rw [hc.txnid, insertFree_fits (by rw [hc.free]; exact a1) a4 a5 a6 a7 a8 a9, a2]
      refine ⟨_, fr, hf, _, rfl, ?_, a11.root, ?_, ?_, ?_, .inr ⟨hf0, w1, w5 k2, by rw [w2]; exact k3, w4⟩, hd, ?_, ?_⟩
      · refine Clean.set ?_ (hnot01 _ hlm).1 a10 a13 ?_
        · exact a12 [0, 1] (Clean id fr [0, 1]) (fun _ _ _ h hn hp hwf hl => h.set hn hp hwf hl) (fun t x _ h => h.freed (t.freed ++ [x]))
            (fun x hx => hnot01 x (isPath_mem a3 x hx)) hc01
        · rw [a11.newLast]; exact (hnot01 _ hlm).2
      · show t.newLast ≤ t1.newLast; rw [a11.newLast]; omega
      · show t1.newLast ≤ t.newLast + 1; rw [a11.newLast]; omega
      · intro x hx
        rw [a14, if_neg]
        rintro rfl
        exact (hM _ hx).1 (hin _ hlm)
      · intro x hx
        unfold treePages at hx
        rw [if_neg hf0, w2] at hx
        refine ⟨hlow x (by rw [htp, ← hpg]; exact hx), ?_, fun hm => (hM x hm).1 (hin x hx)⟩
        show x ≤ t1.newLast
        rw [a11.newLast]; exact (hnot01 x hx).2
      · rw [k4] at w3
        intro kv hkv
        rw [List.mem_append, List.mem_cons] at hkv
        rw [w3, List.mem_append]
        rcases hkv with h | rfl | h
        · exact .inl (.inl h)
        · exact .inr rfl
        · exact .inl (.inr h)

end Verif.Db
