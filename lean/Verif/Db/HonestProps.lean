import Verif.Db.Honest
import Verif.Db.LooseProps
import Verif.Db.Witness

/-!
# What lookups may answer after any history of transactions (C124)

Nothing is asked of the history: not that operations succeed, not that pages have room, not that the Free DB gives out only pages that are free.
-/

namespace Verif.Db.Honest

open Verif.Page

variable {B : Bytes → Bytes → Prop} {S : Nat → Prop} {env : Env}

/-! ### Commits -/

theorem insertFree_fair {al : Alloc} (ha : Gives B S env al) (hb : Base B S env.file env.filePages) {t : Txn} (F : Fair B S t) (hz : t.freeRoot ≠ 0) {key val : Bytes}
    (hA : May B (Has S t) key val) {r : Txn × Except Status Nat} (e : insertFree al env t key val = .ok r) (hN : r.1.newLast < lim) :
    Fair B S r.1 ∧ ∀ n, r.2 = .ok n → Has S r.1 n := by
  have hr := F.froot.resolve_left hz
  unfold insertFree at e
  obtain ⟨x, e1, e⟩ := Res.bind_eq_ok.1 e
  cases x with
  | error s =>
    obtain ⟨a, -, b⟩ := newTree_fair ha F hA e hN
    exact ⟨a, b⟩
  | ok path =>
    obtain ⟨hne, hhead, hall, q, hq, hlf⟩ := findPath_fair F hb hr e1
    obtain ⟨leaf, e2, e⟩ := Res.bind_eq_ok.1 e
    obtain ⟨f, e3, e⟩ := Res.bind_eq_ok.1 e
    split at e
    · cases e; exact ⟨F, fun n h => by cases h⟩
    · obtain ⟨c, e4, e⟩ := Res.bind_eq_ok.1 e
      obtain ⟨c1, s1, F1, g1⟩ := cowPath_all hb F hne hall e4
      obtain ⟨p, e5, e⟩ := Res.bind_eq_ok.1 e
      have hdp : c.2.getDirty c.1 = some p := by
        cases hx : c.2.getDirty c.1 with
        | none => rw [hx] at e5; cases e5
        | some q => rw [hx, Res.ofOption_some] at e5; rw [Res.ok.inj e5]
      obtain ⟨k2, kl, kn, kf⟩ := F1.dirty _ _ hdp
      have hleaf : leaf = p ∧ q = p := by
        have := s1.view (path.getLastD 0)
        rw [← c1, getPage_dirty F1.rdonly hdp, c1] at this
        rw [e2] at this; rw [hq] at e2
        exact ⟨(Res.ok.inj this).symm, (Res.ok.inj e2).trans (Res.ok.inj this).symm⟩
      obtain ⟨rfl, rfl⟩ := hleaf
      obtain ⟨y, e6, e⟩ := Res.bind_eq_ok.1 e
      obtain ⟨f3, n3, -⟩ := insert_fine kf (probe_any kf.wf e3).1 ((leaf_goes (hA.mono g1)).fits hlf) e6
      split at e
      · cases e
        exact ⟨F1.set' k2 kl (n3.trans kn) f3, fun n hn => by cases hn; rw [hhead]; exact has_set _ _ _ (g1 _ hr)⟩
      · cases e; exact ⟨F1, fun n h => by cases h⟩
      · obtain ⟨a, -, b⟩ := pageSplit_fair ha hb F1 (by rw [hhead]; exact g1 _ hr) (hA.mono g1) e hN
        exact ⟨a, b⟩

theorem populate_fair {al : Alloc} (ha : Gives B S env al) (hb : Base B S env.file env.filePages) {t : Txn} (F : Fair B S t) {r : Txn × Except Status Nat}
    (e : populate al env t = .ok r) (hN : r.1.newLast < lim) : Fair B S r.1 ∧ ∀ n, r.2 = .ok n → n = 0 ∨ Has S r.1 n := by
  have hmay : May B (Has S t) (le 8 t.txnid) (t.freed.flatMap (le 8)) := may_list F.freed (by simp)
  unfold populate at e
  split at e
  · cases e; exact ⟨F, fun n hn => by cases hn; exact F.froot⟩
  · split at e
    · obtain ⟨a, -, b⟩ := newTree_fair ha F hmay e hN
      exact ⟨a, fun n hn => .inr (b n hn)⟩
    · rename_i hz
      obtain ⟨a, b⟩ := insertFree_fair ha hb F (fun h => hz (.inl h)) hmay e hN
      exact ⟨a, fun n hn => .inr (b n hn)⟩

/-- What every history keeps of a database between transactions, also one with commits that stop in the middle. -/
structure Part (B : Bytes → Bytes → Prop) (S : Nat → Prop) (env : Env) : Prop where
  base : Base B S env.file env.filePages
  two : 2 ≤ env.filePages
  live : env.live < 2
  metas : ∀ j, j < 2 → (metaRoot (env.file j) = 0 ∨ S (metaRoot (env.file j))) ∧ (metaFree (env.file j) = 0 ∨ S (metaFree (env.file j))) ∧
    1 ≤ metaLast (env.file j) ∧ metaLast (env.file j) < lim
  rest : ∀ n, 2 ≤ n → n < env.filePages → ¬ S n → env.file n = zeroPage
  valid : ∀ j, j < 2 → validMeta (env.file j) = true

/-- What histories keep whose commits come to their end, or write nothing. -/
structure Whole (B : Bytes → Bytes → Prop) (S : Nat → Prop) (env : Env) : Prop where
  part : Part B S env
  full : Full S env.file env.filePages

theorem Whole.base (W : Whole B S env) : Base B S env.file env.filePages := W.part.base
theorem Whole.live (W : Whole B S env) : env.live < 2 := W.part.live
theorem Whole.metas (W : Whole B S env) : ∀ j, j < 2 → (metaRoot (env.file j) = 0 ∨ S (metaRoot (env.file j))) ∧ (metaFree (env.file j) = 0 ∨ S (metaFree (env.file j))) ∧
    1 ≤ metaLast (env.file j) ∧ metaLast (env.file j) < lim := W.part.metas

theorem Part.congr {env' : Env} (W : Part B S env) (h1 : env'.file = env.file) (h2 : env'.filePages = env.filePages) (h3 : env'.live < 2) : Part B S env' :=
  ⟨by rw [h1, h2]; exact W.base, by rw [h2]; exact W.two, h3, by rw [h1]; exact W.metas, by rw [h1, h2]; exact W.rest, by rw [h1]; exact W.valid⟩

theorem Whole.congr {env' : Env} (W : Whole B S env) (h1 : env'.file = env.file) (h2 : env'.filePages = env.filePages) (h3 : env'.live < 2) : Whole B S env' :=
  ⟨W.part.congr h1 h2 h3, by rw [h1, h2]; exact W.full⟩

theorem begin_part (W : Part B S env) {env1 : Env} {t : Txn} (e : beginWrite env = some (env1, t)) : Part B S env1 ∧ Fair B S t ∧ env1.file = env.file ∧ env1.filePages = env.filePages := by
  unfold beginWrite at e
  split at e
  · cases e
  · cases e
    obtain ⟨a, b, c, -⟩ := W.metas env.live W.live
    exact ⟨W.congr rfl rfl W.live, ⟨rfl, c, fun n p h => (by cases h), fun n h => (by cases h), a.imp id .inl, b.imp id .inl, List.nodup_nil⟩, rfl, rfl⟩

theorem begin_fair (W : Whole B S env) {env1 : Env} {t : Txn} (e : beginWrite env = some (env1, t)) : Whole B S env1 ∧ Fair B S t := by
  obtain ⟨a, b, c, d⟩ := begin_part W.part e
  exact ⟨⟨a, by rw [c, d]; exact W.full⟩, b⟩

/-- What is in the file after the operations of a commit. -/
theorem acts_file {t : Txn} {root free : Nat} (hlow : ∀ n p, (n, p) ∈ t.dirty → 2 ≤ n) (hn : (t.dirty.map Prod.fst).Nodup) (h2 : 2 ≤ env.filePages) :
    (runActs env (allActs env t root free)).file (staleMeta env) = metaPage t.txnid root t.newLast free ∧
    (∀ j, j < 2 → j ≠ staleMeta env → (runActs env (allActs env t root free)).file j = env.file j) ∧
    (∀ n p, t.getDirty n = some p → (runActs env (allActs env t root free)).file n = p ∧ n < (runActs env (allActs env t root free)).filePages) ∧
    (∀ n, n < env.filePages → 2 ≤ n → t.getDirty n = none → (runActs env (allActs env t root free)).file n = env.file n) := by
  have hs := stale_lt env
  refine ⟨?_, ?_, ?_, ?_⟩
  · exact (written (env := env) (A := extendActs env t ++ writeActs t.dirty) (n := staleMeta env) (p := metaPage t.txnid root t.newLast free) (B := [.sync]) (by simp)).1
  · intro j hj hne
    refine untouched _ (by omega) ?_
    intro p hp
    unfold allActs metaActs at hp
    rw [List.mem_append, List.mem_append, mem_writeActs] at hp
    rcases hp with (hp | hp) | hp
    · exact mem_extendActs hp
    · have := hlow _ _ hp; omega
    · simp at hp; exact hne hp.1
  · intro n p hp
    have hp' := (getDirty_mem hn).1 hp
    obtain ⟨A, C, e⟩ := List.append_of_mem hp'
    have hC : ∀ q, (n, q) ∉ C := by
      intro q hq
      rw [e] at hn
      simp only [List.map_append, List.map_cons, List.nodup_append, List.nodup_cons] at hn
      exact hn.2.1.1 (List.mem_map_of_mem (f := Prod.fst) hq)
    have := written (env := env) (A := extendActs env t ++ A.map fun e => Act.write e.1 e.2) (n := n) (p := p)
      (B := (C.map fun e => Act.write e.1 e.2) ++ [.sync] ++ metaActs env t root free) (by
        intro q hq
        rw [List.append_assoc, List.mem_append, List.mem_map] at hq
        rcases hq with ⟨x, hx, e⟩ | hq
        · cases e; exact hC _ hx
        · have := hlow _ _ hp'
          simp [metaActs] at hq; omega)
    have e2 : allActs env t root free = extendActs env t ++ (A.map fun e => Act.write e.1 e.2) ++ Act.write n p ::
        ((C.map fun e => Act.write e.1 e.2) ++ [.sync] ++ metaActs env t root free) := by
      unfold allActs writeActs; rw [e]; simp
    rw [e2]; exact this
  · intro n hn' hn2 hd
    refine untouched _ hn' ?_
    intro p hp
    unfold allActs metaActs at hp
    rw [List.mem_append, List.mem_append, mem_writeActs] at hp
    rcases hp with (hp | hp) | hp
    · exact mem_extendActs hp
    · rw [(getDirty_mem hn).2 hp] at hd; cases hd
    · simp at hp; omega

/-- The file is long enough for the last page. -/
theorem acts_long {t : Txn} (rest : List Act) (h : metaLast env.liveMeta < t.newLast) : t.newLast < (runActs env (extendActs env t ++ rest)).filePages := by
  rw [runActs_append]
  refine Nat.lt_of_lt_of_le ?_ (runActs_kept _ _).file
  unfold extendActs
  rw [if_pos h]
  split
  · exact grow_size env (t.newLast + 1)
  · show _ < env.filePages; omega

/-- The operations of a commit. -/
theorem commitActs_fair (W : Part B S env) {t : Txn} (F : t.newLast < lim → Fair B S t) {fuel : Nat} {acts : List Act} (e1 : commitActs (alloc env fuel) env t = .ok (.ok acts))
    (hN : (runActs env acts).filePages ≤ lim) :
    ∃ t1 free, acts = allActs env t1 t1.root free ∧ Fair B S t1 ∧ (free = 0 ∨ Has S t1 free) ∧ t1.newLast < lim := by
  unfold commitActs at e1
  obtain ⟨r, e2, e1⟩ := Res.bind_eq_ok.1 e1
  obtain ⟨t1, y⟩ := r
  cases y with
  | error s => cases e1
  | ok free =>
    simp only [] at e1
    obtain ⟨ps, e3, e1⟩ := Res.bind_eq_ok.1 e1
    have e1 := Except.ok.inj (Res.ok.inj e1)
    subst e1
    have hlast : t1.newLast < lim := by
      by_cases h : metaLast env.liveMeta < t1.newLast
      · have := acts_long (writeActs ps ++ metaActs env t1 (newPgno t1 t1.root) free) h
        rw [← List.append_assoc] at this
        exact Nat.lt_of_lt_of_le this hN
      · have := (W.metas env.live W.live).2.2.2
        have : metaLast env.liveMeta < lim := this
        omega
    have hmono := populate_inv (closed_last env t.newLast) ((mono_alloc env fuel).last _) e2 (Nat.le_refl _)
    have hmono : t.newLast ≤ t1.newLast := hmono
    obtain ⟨F1, hfree⟩ := populate_fair (gives_alloc W.base fuel) W.base (F (by omega)) e2 hlast
    have hid : ∀ n, newPgno t1 n = n := by
      intro n
      unfold newPgno
      cases hd : t1.getDirty n with
      | none => rfl
      | some p => exact (F1.dirty n p hd).2.2.1
    have hmem : ∀ n p, (n, p) ∈ t1.dirty → t1.getDirty n = some p := fun n p h => (getDirty_mem F1.uniq).2 h
    rw [remapAll_id hid _ fun x hx => by
      have := F1.dirty x.1 x.2 (hmem _ _ hx)
      exact ⟨this.2.2.2.wf, this.2.2.1⟩] at e3
    have e3 := Res.ok.inj e3
    subst e3
    exact ⟨t1, free, by rw [hid]; rfl, F1, hfree free rfl, hlast⟩

end Verif.Db.Honest

namespace Verif.Db

open Verif.Page

/-- What the file of `env'` may hold when a commit with the operations `acts` on `env` did not come to its end: every page is as before, empty if there was none before, or one of those that the
commit writes.  Which of them are written, and in which order, is open; a page is written as a whole or not at all. -/
structure Stopped (env : Env) (acts : List Act) (env' : Env) : Prop where
  page : ∀ n, n < env'.filePages → (n < env.filePages ∧ env'.file n = env.file n) ∨ (env.filePages ≤ n ∧ env'.file n = zeroPage) ∨ ∃ p, Act.write n p ∈ acts ∧ env'.file n = p
  two : 2 ≤ env'.filePages
  live : env'.live < 2

theorem runActs_page (acts : List Act) : ∀ {env : Env} {n : Nat}, n < (runActs env acts).filePages →
    (n < env.filePages ∧ (runActs env acts).file n = env.file n) ∨ (env.filePages ≤ n ∧ (runActs env acts).file n = zeroPage) ∨ ∃ p, Act.write n p ∈ acts ∧ (runActs env acts).file n = p := by
  induction acts with
  | nil => intro env n h; exact .inl ⟨h, rfl⟩
  | cons a acts ih =>
    intro env n h
    rw [runActs_cons] at h ⊢
    rcases ih h with ⟨h1, h2⟩ | ⟨h1, h2⟩ | ⟨p, h1, h2⟩
    · rw [h2]
      have hg : ∀ k, n < (growFile env k).filePages → (n < env.filePages ∧ (growFile env k).file n = env.file n) ∨ (env.filePages ≤ n ∧ (growFile env k).file n = zeroPage) := by
        intro k hk
        by_cases hn : n < env.filePages
        · exact .inl ⟨hn, by unfold growFile; split; exact if_pos hn; rfl⟩
        · refine .inr ⟨by omega, ?_⟩
          unfold growFile at hk ⊢
          split
          · exact if_neg hn
          · rename_i hf; rw [if_neg hf] at hk; omega
      cases a with
      | grow k =>
        rcases hg k h1 with h | h
        · exact .inl h
        · exact .inr (.inl h)
      | write m p =>
        have hf : ((Act.write m p).run env).file n = if n = m then p else (growFile env (m + 1)).file n := rfl
        rw [hf]
        by_cases hm : n = m
        · rw [if_pos hm]; subst hm
          exact .inr (.inr ⟨p, List.mem_cons_self, rfl⟩)
        · rw [if_neg hm]
          rcases hg _ h1 with h | h
          · exact .inl h
          · exact .inr (.inl h)
      | sync => exact .inl ⟨h1, rfl⟩
    · refine .inr (.inl ⟨Nat.le_trans ?_ h1, h2⟩)
      exact (runActs_kept [a] env).file
    · exact .inr (.inr ⟨p, List.mem_cons_of_mem _ h1, h2⟩)

end Verif.Db

namespace Verif.Db.Honest

open Verif.Page

variable {B : Bytes → Bytes → Prop} {S : Nat → Prop} {env : Env}

theorem fine_ne {A : Bytes → Bytes → Prop} {p : Page} (f : Fine A S p) : p ≠ zeroPage := by
  intro h
  have := f.wf.kind
  rw [h] at this
  revert this; decide

/-- The meta pages that a commit leaves that did not come to its end. -/
theorem stopped_valid (W : Part B S env) {t1 : Txn} {free : Nat} (F1 : Fair B S t1) {env' : Env} (H : Stopped env (allActs env t1 t1.root free) env') :
    ∀ j, j < 2 → validMeta (env'.file j) = true := by
  intro j hj
  rcases H.page j (by have := H.two; omega) with ⟨h, hf⟩ | ⟨h, hf⟩ | ⟨p, h, hf⟩
  · rw [hf]; exact W.valid j hj
  · have := W.two; omega
  · rw [hf]
    unfold allActs metaActs at h
    rw [List.mem_append, List.mem_append, mem_writeActs] at h
    rcases h with (h | h) | h
    · exact absurd h mem_extendActs
    · have := (F1.dirty j p ((getDirty_mem F1.uniq).2 h)).1; omega
    · simp at h; rw [h.2]; exact metaPage_valid _ _ _ _

/-- What a commit leaves that did not come to its end. -/
theorem stopped_part (W : Part B S env) {t1 : Txn} {free : Nat} (F1 : Fair B S t1) (hfree : free = 0 ∨ Has S t1 free) (hlast : t1.newLast < lim) {env' : Env}
    (H : Stopped env (allActs env t1 t1.root free) env') (hh : Full (Has S t1) env'.file env'.filePages ∨ Calm env'.file env'.filePages) : Part B (Has S t1) env' := by
  have hmem : ∀ n p, (n, p) ∈ t1.dirty → t1.getDirty n = some p := fun n p h => (getDirty_mem F1.uniq).2 h
  have hbound : ∀ {n}, Has S t1 n → n < 2 ^ 64 := fun h => lim64 (F1.bound W.base h).2
  have hwr : ∀ {n p}, Act.write n p ∈ allActs env t1 t1.root free → t1.getDirty n = some p ∨ n = staleMeta env ∧ p = metaPage t1.txnid t1.root t1.newLast free := by
    intro n p h
    unfold allActs metaActs at h
    rw [List.mem_append, List.mem_append, mem_writeActs] at h
    rcases h with (h | h) | h
    · exact absurd h mem_extendActs
    · exact .inl (hmem n p h)
    · exact .inr (by simpa using h)
  have hst := stale_lt env
  have hmeta : ∀ j, j < 2 → env'.file j = env.file j ∨ env'.file j = metaPage t1.txnid t1.root t1.newLast free := by
    intro j hj
    rcases H.page j (by have := H.two; omega) with ⟨h, hf⟩ | ⟨h, hf⟩ | ⟨p, h, hf⟩
    · exact .inl hf
    · have := W.two; omega
    · rcases hwr h with h | ⟨-, h⟩
      · have := (F1.dirty _ p h).1; omega
      · exact .inr (hf.trans h)
  refine ⟨⟨fun n hn => ⟨(F1.bound W.base hn).1, (F1.bound W.base hn).2, fun hlen => ?_⟩, hh⟩, H.two, H.live, fun j hj => ?_, fun n h2 hn hS => ?_, stopped_valid W F1 H⟩
  · have h2 := (F1.bound W.base hn).1
    rcases H.page n hlen with ⟨h, hf⟩ | ⟨h, hf⟩ | ⟨q, h, hf⟩
    · rw [hf]
      by_cases hS : S n
      · rcases (W.base.page n hS).2.2 h with h | ⟨h, f⟩
        · exact .inl h
        · exact .inr ⟨h, f.mono (fun _ _ m => m.mono fun _ => Or.inl) fun _ => Or.inl⟩
      · exact .inl (W.rest n h2 h hS)
    · exact .inl hf
    · rcases hwr h with h | ⟨h, -⟩
      · rw [hf]; exact .inr (F1.dirty n q h).2.2
      · omega
  · rcases hmeta j hj with h | h
    · rw [h]
      obtain ⟨c1, c2, c3⟩ := W.metas j hj
      exact ⟨c1.imp id .inl, c2.imp id .inl, c3⟩
    · rw [h, metaPage_root, metaPage_free, metaPage_last, Nat.mod_eq_of_lt (lim64 hlast)]
      refine ⟨?_, ?_, F1.low, hlast⟩
      · rcases F1.root with h | h
        · left; rw [show t1.root = 0 from h]
        · right
          have h : Has S t1 t1.root := h
          rw [Nat.mod_eq_of_lt (hbound h)]; exact h
      · rcases hfree with h | h
        · left; rw [h]
        · right
          have h : Has S t1 free := h
          rw [Nat.mod_eq_of_lt (hbound h)]; exact h
  · rcases H.page n hn with ⟨h, hf⟩ | ⟨h, hf⟩ | ⟨q, h, hf⟩
    · rw [hf]; exact W.rest n h2 h fun h => hS (.inl h)
    · exact hf
    · rcases hwr h with h | ⟨h, -⟩
      · exact absurd (.inr (by rw [h]; rfl)) hS
      · omega

/-- The pages in use are there after a commit, if they were before. -/
theorem acts_full (W : Whole B S env) {t1 : Txn} {free : Nat} (F1 : Fair B S t1) :
    Full (Has S t1) (runActs env (allActs env t1 t1.root free)).file (runActs env (allActs env t1 t1.root free)).filePages := by
  have hmem : ∀ n p, (n, p) ∈ t1.dirty → t1.getDirty n = some p := fun n p h => (getDirty_mem F1.uniq).2 h
  obtain ⟨-, -, a3, a4⟩ := acts_file (env := env) (t := t1) (root := t1.root) (free := free) (fun n p h => (F1.dirty n p (hmem n p h)).1) F1.uniq W.part.two
  have hfp : env.filePages ≤ (runActs env (allActs env t1 t1.root free)).filePages := (runActs_kept _ _).file
  intro n hn
  cases hd : t1.getDirty n with
  | some p =>
    obtain ⟨b1, b2⟩ := a3 n p hd
    exact ⟨b2, by rw [b1]; exact fine_ne (F1.dirty n p hd).2.2.2⟩
  | none =>
    have hS : S n := by
      rcases hn with h | h
      · exact h
      · rw [hd] at h; cases h
    obtain ⟨c1, c2⟩ := W.full n hS
    exact ⟨Nat.lt_of_lt_of_le c1 hfp, by rw [a4 n c1 (W.base.page n hS).1 hd]; exact c2⟩

theorem commit_whole (W : Whole B S env) {t : Txn} (F : t.newLast < lim → Fair B S t) {fuel : Nat} {st : Status} {env2 : Env} (e : commit env fuel t = .ok (st, env2))
    (hN : env2.filePages ≤ lim) : ∃ S', (∀ n, S n → S' n) ∧ Whole B S' env2 := by
  unfold commit commitWith at e
  split at e
  · cases e; exact ⟨S, fun _ h => h, W.congr rfl rfl W.live⟩
  · obtain ⟨x, e1, e⟩ := Res.bind_eq_ok.1 e
    cases x with
    | error s => cases e; exact ⟨S, fun _ h => h, W.congr rfl rfl W.live⟩
    | ok acts =>
      cases e
      obtain ⟨t1, free, rfl, F1, hfree, hlast⟩ := commitActs_fair W.part F e1 hN
      have hf := acts_full (free := free) W F1
      exact ⟨Has S t1, fun n h => .inl h, stopped_part W.part F1 hfree hlast ⟨fun _ hn => runActs_page _ hn, Nat.le_trans W.part.two (runActs_kept _ _).file, stale_lt env⟩ (.inl hf), hf⟩

/-- A commit in a database with holes. -/
theorem commit_part (W : Part B S env) {t : Txn} (F : t.newLast < lim → Fair B S t) {fuel : Nat} {st : Status} {env2 : Env} (e : commit env fuel t = .ok (st, env2))
    (hN : env2.filePages ≤ lim) (hc : validMeta (env2.file 0) = true → Calm env2.file env2.filePages) : ∃ S', Part B S' env2 := by
  unfold commit commitWith at e
  split at e
  · cases e; exact ⟨S, W.congr rfl rfl W.live⟩
  · obtain ⟨x, e1, e⟩ := Res.bind_eq_ok.1 e
    cases x with
    | error s => cases e; exact ⟨S, W.congr rfl rfl W.live⟩
    | ok acts =>
      cases e
      obtain ⟨t1, free, rfl, F1, hfree, hlast⟩ := commitActs_fair W F e1 hN
      have H : Stopped env (allActs env t1 t1.root free) { runActs env (allActs env t1 t1.root free) with locked := false, live := staleMeta env } :=
        ⟨fun _ hn => runActs_page _ hn, Nat.le_trans W.two (runActs_kept _ _).file, stale_lt env⟩
      exact ⟨Has S t1, stopped_part W F1 hfree hlast H (.inr (hc (stopped_valid W F1 H 0 (by omega))))⟩

/-! ### Lookups -/

theorem findLeaf_fine {A : Bytes → Bytes → Prop} {U : Nat → Prop} {t : Txn} (hv : ∀ n p, U n → getPage env t n = .ok p → isLeaf p = true ∨ isBranch p = true → Fine A U p) {key : Bytes} : ∀ {fuel n : Nat} {p : Page},
    U n → findLeaf env t key fuel n = .ok (.ok p) → Fine A U p ∧ isLeaf p = true := by
  intro fuel
  induction fuel with
  | zero => intro n p _ e; cases e
  | succ fuel ih =>
    intro n p hn e
    rw [findLeaf] at e
    obtain ⟨q, hq, e⟩ := Res.bind_eq_ok.1 e
    split at e
    · rename_i hl
      cases e; exact ⟨hv n _ hn hq (.inl hl), hl⟩
    · rename_i hl
      split at e
      · cases e
      · rename_i hbr
        have f := hv n q hn hq (.inr (by simpa using hbr))
        obtain ⟨i, e1, e⟩ := Res.bind_eq_ok.1 e
        obtain ⟨c, e2, e⟩ := Res.bind_eq_ok.1 e
        have hl' : isLeaf q = false := by simpa using hl
        rcases childIdx_any f.wf e1 with hi | ⟨-, rfl⟩
        · obtain ⟨it, hm, rfl⟩ := child_mem f.wf hl' hi e2
          exact ih (f.kids hl' it hm) e
        · rw [child_empty] at e2; cases e2

theorem get_fine {A : Bytes → Bytes → Prop} {U : Nat → Prop} {t : Txn} (hv : ∀ n p, U n → getPage env t n = .ok p → isLeaf p = true ∨ isBranch p = true → Fine A U p) (hr : t.root = 0 ∨ U t.root) {key v : Bytes}
    (hk : key.length < 65536) {fuel : Nat} (e : get env t fuel key = .ok (.ok v)) : A key v := by
  unfold get at e
  split at e
  · cases e
  · rename_i hz
    obtain ⟨x, e1, e⟩ := Res.bind_eq_ok.1 e
    cases x with
    | error s => cases e
    | ok p =>
      simp only [] at e
      obtain ⟨f, hl⟩ := findLeaf_fine hv (hr.resolve_left hz) e1
      obtain ⟨y, e2, e⟩ := Res.bind_eq_ok.1 e
      cases y with
      | notFound i => cases e
      | found i =>
        simp only [] at e
        obtain ⟨kv, e3, e⟩ := Res.bind_eq_ok.1 e
        obtain ⟨hi, hki⟩ := (probe_any f.wf e2).2 i rfl
        rw [Nat.mod_eq_of_lt hk, List.take_length] at hki
        have hlen : i < (items p).length := by simpa using hi
        have hkv : (kvs p)[i]? = some (((items p)[i]).key, ((items p)[i]).val) := by
          unfold kvs; rw [List.getElem?_map, List.getElem?_eq_getElem hlen]; rfl
        rw [leafNode_spec f.wf hl hkv] at e3
        have e3 := Res.ok.inj e3
        have e := Except.ok.inj (Res.ok.inj e)
        rw [← e, ← e3, ← hki]
        exact f.pairs hl _ (List.getElem_mem hlen)

theorem steps_last {fuel : Nat} : ∀ {ops : List KvOp} {t t' : Txn} {sts : List Status}, steps env fuel t ops = .ok (sts, t') → t.newLast ≤ t'.newLast := by
  intro ops
  induction ops with
  | nil => intro t t' sts e; cases e; exact Nat.le_refl _
  | cons op ops ih =>
    intro t t' sts e
    rw [steps] at e
    obtain ⟨a, e1, e⟩ := Res.bind_eq_ok.1 e
    obtain ⟨b, e2, e⟩ := Res.bind_eq_ok.1 e
    cases e
    refine Nat.le_trans ?_ (ih e2)
    cases op with
    | put k v => exact putWith_inv (closed_last env t.newLast) ((mono_alloc env fuel).last _) e1 (Nat.le_refl _)
    | del k => exact del_inv (closed_last env t.newLast) e1 (Nat.le_refl _)

theorem steps_fair (hb : Base B S env.file env.filePages) {fuel : Nat} : ∀ {ops : List KvOp} {t t' : Txn} {sts : List Status}, Fair B S t →
    (∀ k v, KvOp.put k v ∈ ops → k.length ≠ 8 ∧ B k v) → steps env fuel t ops = .ok (sts, t') → t'.newLast < lim → Fair B S t' := by
  intro ops
  induction ops with
  | nil => intro t t' sts F _ e _; cases e; exact F
  | cons op ops ih =>
    intro t t' sts F hB e hN
    rw [steps] at e
    obtain ⟨a, e1, e⟩ := Res.bind_eq_ok.1 e
    obtain ⟨b, e2, e⟩ := Res.bind_eq_ok.1 e
    cases e
    have hmid : a.2.newLast < lim := Nat.lt_of_le_of_lt (steps_last e2) hN
    refine ih ?_ (fun k v h => hB k v (List.mem_cons_of_mem _ h)) e2 hN
    cases op with
    | put k v =>
      obtain ⟨h8, hv⟩ := hB k v List.mem_cons_self
      exact putWith_fair (gives_alloc hb fuel) hb F (by unfold May; rw [if_neg h8]; exact hv) e1 hmid
    | del k => exact (del_fair hb F e1).1

end Verif.Db.Honest

namespace Verif.Db

open Verif.Page Honest

/-- A database that came about by creating it, by transactions of any operations with any answers, committed with any answer or aborted, by opening the file
again, and with any readers; with the operations of the transactions that were committed.  Its file has at most `2 ^ 19` pages. -/
inductive Past : List KvOp → Env → Prop
  | create {mapPages : Nat} {env : Env} (h : envCreate mapPages = .ok env) : Past [] env
  | commit {ops more : List KvOp} {env env1 env2 : Env} {t t' : Txn} {fuel fuel' : Nat} {sts : List Status} {st : Status} (past : Past ops env)
      (hb : beginWrite env = some (env1, t)) (hs : steps env1 fuel t more = .ok (sts, t')) (hc : commit env1 fuel' t' = .ok (st, env2))
      (hsize : env2.filePages ≤ 2 ^ 19) : Past (ops ++ more) env2
  | abort {ops : List KvOp} {env env1 : Env} {t : Txn} (past : Past ops env) (hb : beginWrite env = some (env1, t)) : Past ops (abortWrite env1)
  | reopen {ops : List KvOp} {env env1 : Env} {mapPages : Nat} (past : Past ops env) (ho : envOpen env.file env.filePages mapPages = .ok (.ok env1)) : Past ops env1
  | readers {ops : List KvOp} {env : Env} (rs : List Slot) (past : Past ops env) : Past ops { env with readers := rs }

theorem Honest.May.weaken {B B' : Bytes → Bytes → Prop} {S : Nat → Prop} (h : ∀ k v, B k v → B' k v) {k v : Bytes} (m : May B S k v) : May B' S k v := by
  unfold May at *
  split at m
  · rename_i h8
    rw [if_pos h8]; exact m
  · rename_i h8
    rw [if_neg h8]; exact h k v m

theorem Honest.Part.weaken {B B' : Bytes → Bytes → Prop} {S : Nat → Prop} {env : Env} (h : ∀ k v, B k v → B' k v) (W : Part B S env) : Part B' S env := by
  refine ⟨⟨fun n hn => ?_, W.base.holes⟩, W.two, W.live, W.metas, W.rest, W.valid⟩
  obtain ⟨a, b, c⟩ := W.base.page n hn
  exact ⟨a, b, fun hl => (c hl).imp id fun x => ⟨x.1, x.2.mono (fun k v m => m.weaken h) fun _ h => h⟩⟩

theorem Honest.Whole.weaken {B B' : Bytes → Bytes → Prop} {S : Nat → Prop} {env : Env} (h : ∀ k v, B k v → B' k v) (W : Whole B S env) : Whole B' S env :=
  ⟨W.part.weaken h, W.full⟩

theorem Honest.Fair.weaken {B B' : Bytes → Bytes → Prop} {S : Nat → Prop} {t : Txn} (h : ∀ k v, B k v → B' k v) (F : Fair B S t) : Fair B' S t := by
  refine ⟨F.rdonly, F.low, fun n p hp => ?_, F.freed, F.root, F.froot, F.uniq⟩
  obtain ⟨a, b, c, f⟩ := F.dirty n p hp
  exact ⟨a, b, c, f.mono (fun k v m => m.weaken h) fun _ h => h⟩

theorem Honest.create_whole {B : Bytes → Bytes → Prop} {mapPages : Nat} {env : Env} (h : envCreate mapPages = .ok env) : Whole B (fun _ => False) env := by
  unfold envCreate at h
  split at h
  · cases h
  · cases h
    refine ⟨⟨⟨fun n hn => hn.elim, .inl fun n hn => hn.elim⟩, Nat.le_refl _, by show 1 < 2; omega, fun j hj => ?_, fun n h2 hn => absurd hn (by show ¬ n < 2; omega), fun j hj => ?_⟩, fun n hn => hn.elim⟩
    · have hj : j = 0 ∨ j = 1 := by omega
      rcases hj with rfl | rfl <;> simp [metaPage_root, metaPage_free, metaPage_last, lim_eq]
    · have hj : j = 0 ∨ j = 1 := by omega
      rcases hj with rfl | rfl <;> simp [metaPage_valid]

theorem Honest.selectLive_lt {m0 m1 : Page} {l : Nat} (hl : selectLive m0 m1 = some l) : l < 2 := by
  unfold selectLive at hl
  split at hl
  · cases hl
  · split at hl
    · cases hl; omega
    · split at hl
      · cases hl; omega
      · split at hl <;> (cases hl; omega)

theorem Honest.open_part {B : Bytes → Bytes → Prop} {S : Nat → Prop} {env env1 : Env} {mapPages : Nat} (W : Part B S env)
    (ho : envOpen env.file env.filePages mapPages = .ok (.ok env1)) : Part B S env1 ∧ env1.file = env.file ∧ env1.filePages = env.filePages := by
  unfold envOpen at ho
  split at ho
  · cases ho
  · split at ho
    · cases ho
    · rename_i l hl
      cases ho
      exact ⟨W.congr rfl rfl (selectLive_lt hl), rfl, rfl⟩

theorem Honest.open_whole {B : Bytes → Bytes → Prop} {S : Nat → Prop} {env env1 : Env} {mapPages : Nat} (W : Whole B S env)
    (ho : envOpen env.file env.filePages mapPages = .ok (.ok env1)) : Whole B S env1 := by
  obtain ⟨a, b, c⟩ := open_part W.part ho
  exact ⟨a, by rw [b, c]; exact W.full⟩

/-- A lookup of a read transaction that began on this database. -/
theorem Honest.get_part {B : Bytes → Bytes → Prop} {S : Nat → Prop} {env : Env} {t : Txn} (W : Part B S env) (hro : t.rdonly = true) (hr : t.root = 0 ∨ S t.root) {k v : Bytes}
    (hk : k.length < 65536) (hk8 : k.length ≠ 8) {fuel : Nat} (e : get env t fuel k = .ok (.ok v)) : B k v := by
  have := get_fine (A := May B S) (U := S) (fun n p hn hp hkind => by
    unfold getPage at hp
    rw [if_pos hro] at hp
    unfold mapPage at hp
    split at hp
    · rename_i hlen
      rw [← Res.ok.inj hp] at hkind ⊢
      rcases (W.base.page n hn).2.2 hlen.2 with h | h
      · rw [h] at hkind; exact absurd hkind zero_kind
      · exact h.2
    · cases hp) hr hk e
  unfold May at this
  rw [if_neg hk8] at this
  exact this

/-- As before, for a database without holes. -/
theorem Honest.get_read {B : Bytes → Bytes → Prop} {S : Nat → Prop} {env : Env} {t : Txn} (W : Whole B S env) (hro : t.rdonly = true) (hr : t.root = 0 ∨ S t.root) {k v : Bytes}
    (hk : k.length < 65536) (hk8 : k.length ≠ 8) {fuel : Nat} (e : get env t fuel k = .ok (.ok v)) : B k v := get_part W.part hro hr hk hk8 e

/-- A lookup inside a write transaction. -/
theorem Honest.get_inside {B : Bytes → Bytes → Prop} {S : Nat → Prop} {env : Env} {t : Txn} (W : Part B S env) (F : Fair B S t) {k v : Bytes}
    (hk : k.length < 65536) (hk8 : k.length ≠ 8) {fuel : Nat} (e : get env t fuel k = .ok (.ok v)) : B k v := by
  have := get_fine (fun n p hn hp hkind => (F.got W.base hn hp hkind).2) F.root hk e
  unfold May at this
  rw [if_neg hk8] at this
  exact this

/-- As before, for a database without holes. -/
theorem Honest.get_write {B : Bytes → Bytes → Prop} {S : Nat → Prop} {env : Env} {t : Txn} (W : Whole B S env) (F : Fair B S t) {k v : Bytes}
    (hk : k.length < 65536) (hk8 : k.length ≠ 8) {fuel : Nat} (e : get env t fuel k = .ok (.ok v)) : B k v := get_inside W.part F hk hk8 e

theorem past_whole {ops : List KvOp} {env : Env} (H : Past ops env) : (∀ k v, KvOp.put k v ∈ ops → k.length ≠ 8) →
    ∃ S, Whole (fun k v => KvOp.put k v ∈ ops) S env := by
  induction H with
  | create h =>
    intro _
    exact ⟨_, create_whole h⟩
  | @commit ops more env env1 env2 t t' fuel fuel' sts st past hb hs hc hsize ih =>
    intro h8
    obtain ⟨S, W⟩ := ih fun k v h => h8 k v (List.mem_append_left _ h)
    have W' : Whole (fun k v => KvOp.put k v ∈ ops ++ more) S env := W.weaken fun k v h => List.mem_append_left _ h
    obtain ⟨W1, F⟩ := begin_fair W' hb
    obtain ⟨S', -, W2⟩ := commit_whole W1 (fun hN => steps_fair W1.base F (fun k v h => ⟨h8 k v (List.mem_append_right _ h), List.mem_append_right _ h⟩) hs hN) hc
      (by rw [lim_eq]; exact hsize)
    exact ⟨S', W2⟩
  | abort past hb ih =>
    intro h8
    obtain ⟨S, W⟩ := ih h8
    obtain ⟨W1, -⟩ := begin_fair W hb
    exact ⟨S, W1.congr rfl rfl W1.live⟩
  | reopen past ho ih =>
    intro h8
    obtain ⟨S, W⟩ := ih h8
    exact ⟨S, open_whole W ho⟩
  | readers rs past ih =>
    intro h8
    obtain ⟨S, W⟩ := ih h8
    exact ⟨S, W.congr rfl rfl W.live⟩

/-- **C124.**  After any history of transactions, a value that a lookup finds, between transactions or inside a further one, was stored under this very key by one of the operations.  What is missing: keys of eight
bytes, databases of more than two gigabytes, and commits that stop in the middle (for these see `values_after_stops_partial`). -/
theorem values_were_stored_partial {ops : List KvOp} {env : Env} (H : Past ops env) (h8 : ∀ k v, KvOp.put k v ∈ ops → k.length ≠ 8) {k v : Bytes} (hk : k.length < 65536) (hk8 : k.length ≠ 8) :
    (∀ fuel, get env (readTxn env) fuel k = .ok (.ok v) → KvOp.put k v ∈ ops) ∧
    ∀ fuel fuel' env1 t t' more sts, beginWrite env = some (env1, t) → (∀ k v, KvOp.put k v ∈ more → k.length ≠ 8) → steps env1 fuel t more = .ok (sts, t') → t'.newLast < 2 ^ 19 →
      get env1 t' fuel' k = .ok (.ok v) → KvOp.put k v ∈ ops ++ more := by
  obtain ⟨S, W⟩ := past_whole H h8
  constructor
  · intro fuel e
    exact get_read W rfl (W.metas env.live W.live).1 hk hk8 e
  · intro fuel fuel' env1 t t' more sts hb hm hs hN e
    have W' : Whole (fun k v => KvOp.put k v ∈ ops ++ more) S env := W.weaken fun k v h => List.mem_append_left _ h
    obtain ⟨W1, F⟩ := begin_fair W' hb
    have F' := steps_fair W1.base F (fun k v h => ⟨hm k v h, List.mem_append_right _ h⟩) hs (by rw [lim_eq]; exact hN)
    exact get_write W1 F' hk hk8 e

/-- The sessions of `Witness` are such histories. -/
theorem puts_steps {env : Env} : ∀ {l : List (Bytes × Bytes)} {t t' : Txn} {sts : List Status}, puts env 5 t l = .ok (sts, t') →
    steps env 5 t (l.map fun kv => KvOp.put kv.1 kv.2) = .ok (sts, t') := by
  intro l
  induction l with
  | nil => intro t t' sts e; exact e
  | cons kv l ih =>
    intro t t' sts e
    rw [puts] at e
    obtain ⟨a, e1, e⟩ := Res.bind_eq_ok.1 e
    obtain ⟨b, e2, e⟩ := Res.bind_eq_ok.1 e
    cases e
    rw [List.map_cons, steps]
    show put env 5 t kv.1 kv.2 >>= _ = _
    rw [e1, Res.ok_bind, ih e2, Res.ok_bind]

theorem session_past {ops : List KvOp} {env env2 : Env} {l : List (Bytes × Bytes)} {sts : List Status} (H : Past ops env) (e : session env l = .ok (sts, env2))
    (hsize : env2.filePages ≤ 2 ^ 19) : Past (ops ++ l.map fun kv => KvOp.put kv.1 kv.2) env2 := by
  unfold session at e
  split at e
  · cases e
  · rename_i env1 t hb
    obtain ⟨a, e1, e⟩ := Res.bind_eq_ok.1 e
    obtain ⟨c, e2, e⟩ := Res.bind_eq_ok.1 e
    cases e
    exact .commit H hb (puts_steps e1) e2 hsize

/-- A history after which the next transaction is given the root of its own tree as a free page (`live_page_handed_out`): what is asked of a history does not keep this away, and
`a` is found with the value it was stored with. -/
example : ∃ env, Past [.put [97] [1], .put [98] [2]] env ∧ (∃ env1 t n t', beginWrite env = some (env1, t) ∧ alloc env1 5 t = .ok (n, t') ∧ n = t.root) ∧
    get env (readTxn env) 5 [97] = .ok (.ok [1]) := by
  have h : Res.holds (envCreate 20) (fun e => Res.holds (session e [([97], [1])]) fun r => decide (r.2.filePages ≤ 2 ^ 19) && Res.holds (session r.2 [([98], [2])]) fun s =>
      decide (s.2.filePages ≤ 2 ^ 19) && (match beginWrite s.2 with
        | none => false
        | some p => Res.holds (alloc p.1 5 p.2) fun a => a.1 == p.2.root) && Res.holds (look s.2 [97]) fun x => match x with | .ok v => v == [1] | _ => false) = true := by decide +kernel
  obtain ⟨e, h1, h⟩ := Res.holds_iff h
  obtain ⟨⟨s1, e1⟩, h2, h⟩ := Res.holds_iff h
  simp only [Bool.and_eq_true, decide_eq_true_eq] at h
  obtain ⟨h3, h⟩ := h
  obtain ⟨⟨s2, e2⟩, h4, h⟩ := Res.holds_iff h
  simp only [Bool.and_eq_true, decide_eq_true_eq] at h
  obtain ⟨⟨h5, h6⟩, h7⟩ := h
  refine ⟨e2, session_past (session_past (.create h1) h2 h3) h4 h5, ?_, ?_⟩
  · split at h6
    · cases h6
    · rename_i p hp
      obtain ⟨⟨n, t'⟩, h8, h9⟩ := Res.holds_iff h6
      exact ⟨p.1, p.2, n, t', hp, h8, by simpa using h9⟩
  · obtain ⟨x, h8, h9⟩ := Res.holds_iff h7
    unfold look at h8
    rw [h8]
    cases x with
    | error e => cases h9
    | ok v => simp only [beq_iff_eq] at h9; rw [h9]

end Verif.Db
