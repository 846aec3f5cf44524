import Verif.Db.BulkProps
import Verif.Db.TxnProps
import Verif.Db.Inv

/-!
# Loading a new database in ascending order and committing (C44, C50)
-/

namespace Verif.Db

open Verif.Page

/-! ## Nothing is freed as long as all pages are new -/

theorem cowAll_same {env : Env} (L : List Nat) : ∀ {t t' : Txn}, cowAll env t L = .ok t' → (∀ x ∈ L, (t.getDirty x).isSome) → t' = t := by
  induction L with
  | nil => intro t t' h _; cases h; rfl
  | cons n L ih =>
    intro t t' h hd
    have hn := hd n List.mem_cons_self
    cases hg : t.getDirty n with
    | none => rw [hg] at hn; cases hn
    | some p =>
      rw [cowAll, cow, hg] at h
      exact ih h fun x hx => hd x (List.mem_cons_of_mem _ hx)

theorem cowPath_same {env : Env} {L : List Nat} {t : Txn} {r : Nat × Txn} (h : cowPath env t L = .ok r) (hd : ∀ x ∈ L, (t.getDirty x).isSome) : r.2 = t := by
  cases L with
  | nil => cases h
  | cons n L =>
    have hn := hd n List.mem_cons_self
    cases hg : t.getDirty n with
    | none => rw [hg] at hn; cases hn
    | some p =>
      rw [cowPath, cow, hg] at h
      simp only [Res.ok_bind] at h
      obtain ⟨t2, h2, h⟩ := Res.bind_eq_ok.1 h
      cases h
      exact cowAll_same L h2 fun x hx => hd x (List.mem_cons_of_mem _ hx)

/-- No pages freed, no Free DB. -/
def NoneFreed (t : Txn) : Prop := t.freed = [] ∧ t.freeRoot = 0

/-- An environment without pages, so that nothing can be taken from the file. -/
def noEnv (env : Env) : Env := { env with mapPages := 0 }

theorem closed_noneFreed (env : Env) : Closed (noEnv env) NoneFreed := by
  refine ⟨fun t n p h => h, ?_, fun _ h => h, fun _ _ h => h⟩
  intro t n r h
  unfold getWritable at h
  obtain ⟨p, h1, -⟩ := Res.bind_eq_ok.1 h
  unfold mapPage noEnv at h1
  rw [if_neg (by rintro ⟨h, -⟩; exact Nat.not_lt_zero _ h)] at h1
  cases h1

theorem allocInv_noneFreed (env : Env) (fuel : Nat) : AllocInv NoneFreed (alloc env (fuel + 1)) := by
  intro t r h ht
  rw [(ext_noFree env fuel).ext t ht.2] at h
  cases h; exact ht

theorem put_noneFreed {env : Env} {fuel : Nat} {t : Txn} {key val : Bytes} {r : Status × Txn} (h : put env (fuel + 1) t key val = .ok r)
    (ht : NoneFreed t) (hp : t.root ≠ 0 → ∀ path, findPath env t key maxDepth t.root = .ok (.ok path) → ∀ x ∈ path, (t.getDirty x).isSome) :
    NoneFreed r.2 := by
  have hP := closed_noneFreed env
  have ha := allocInv_noneFreed env fuel
  unfold put putWith at h
  split at h
  · cases h; exact ht
  · split at h
    · obtain ⟨x, h1, h⟩ := Res.bind_eq_ok.1 h
      cases h
      exact withRoot_inv hP (newTree_inv hP ha h1 ht)
    · rename_i h0
      obtain ⟨path, hpath, h⟩ := Res.bind_eq_ok.1 h
      split at h
      · cases h; exact ht
      · obtain ⟨leaf, -, h⟩ := Res.bind_eq_ok.1 h
        obtain ⟨f, -, h⟩ := Res.bind_eq_ok.1 h
        split at h
        · cases h; exact ht
        · obtain ⟨c, h1, h⟩ := Res.bind_eq_ok.1 h
          have hc : NoneFreed c.2 := by
            rw [cowPath_same h1 fun x hx => hp h0 _ hpath x (List.mem_reverse.1 hx)]; exact ht
          obtain ⟨p, -, h⟩ := Res.bind_eq_ok.1 h
          obtain ⟨d, -, h⟩ := Res.bind_eq_ok.1 h
          have hd := hP.set c.2 c.1 d.2 hc
          split at h
          · obtain ⟨q, -, h⟩ := Res.bind_eq_ok.1 h
            split at h
            · cases h; exact hP.set _ _ _ hd
            · cases h; exact hd
            · obtain ⟨x, h2, h⟩ := Res.bind_eq_ok.1 h
              cases h
              exact withRoot_inv hP (pageSplit_inv hP ha h2 hd)
          · cases h; exact hd

/-! ## The load -/

/-- A write transaction in the course of a load in ascending order. -/
structure Loading (L : Limits) (env : Env) (id : Nat) (t : Txn) (h : Nat) (l : List (Bytes × Bytes)) : Prop where
  clean : Clean id 0 [0, 1] t
  idle : Idle 0 t
  holds : Holds env t h l
  depth : h < maxDepth
  spine : t.root ≠ 0 → Spine L (getPage env t) h t.root
  full : t.root ≠ 0 → Full (getPage env t) h t.root
  apart : t.root ≠ 0 → ∀ x ∈ pagesOf (getPage env t) h t.root, x ∉ [0, 1]
  freed : t.freed = []
  some : l ≠ [] → t.root ≠ 0

theorem load_step {L : Limits} (hL : L.Good) {env : Env} {id : Nat} {t : Txn} {h fuel : Nat} {l : List (Bytes × Bytes)} {key val : Bytes}
    (hnew : ∀ x, 2 ≤ x → mapPage env x = .ub) (hfit : L.Fits (.leaf key val)) (hS : Loading L env id t h l)
    (hgt : ∀ x ∈ l.map Prod.fst, x < key) (hn : t.newLast + 34 < 2 ^ 64) (hlen : l.length + 1 < L.fan ^ 31) :
    ∃ t' h', put env (fuel + 2) t key val = .ok (.success, t') ∧ Loading L env id t' h' (l ++ [(key, val)]) ∧ t'.newLast ≤ t.newLast + 33 := by
  have hd' : h < 32 := hS.depth
  obtain ⟨t', h', a1, a2, a3⟩ := put_asc (ext_clean (r := 0) fun t ht => alloc_quiet (env := env) (fuel := fuel) (.none rfl) ht) hL hfit hS.clean.rdonly
    ⟨hS.clean, hS.idle⟩ hS.holds hgt hS.apart hS.depth hS.spine (by omega)
  have hc : contents (getPage env t') h' t'.root = l ++ [(key, val)] := by
    obtain ⟨X, Y, e1, e2⟩ := a2.ins
    rw [e2, e1]
    cases Y with
    | nil => simp
    | cons y Y =>
      exfalso
      have hs := (wft_range h' a2.tree.wft).1
      rw [e2, List.map_append, List.map_cons, List.map_cons, sorted_append, sorted_cons] at hs
      have := hs.2.1.1 y.1 List.mem_cons_self
      exact blt_irrefl _ (blt_trans this (hgt y.1 (by rw [e1]; simp)))
  have hh : Holds env t' h' (l ++ [(key, val)]) := .inr ⟨a2.root, a2.tree, hc⟩
  have hlast := a2.last'
  refine ⟨t', h', a1, ⟨a2.inv.1, a2.inv.2, hh, ?_, fun _ => a3, fun _ => a2.full hS.full, ?_, ?_, fun _ => a2.root⟩, by omega⟩
  · exact height_small hh (fun _ => a3) a2.root (by rw [List.length_append]; simpa using hlen)
  · intro _ x hx
    rcases a2.pages x hx with ⟨h0, hx⟩ | hx
    · exact hS.apart h0 x hx
    · intro hm
      have := hS.clean.last x hm
      omega
  · refine (put_noneFreed (fuel := fuel + 1) a1 ⟨hS.freed, hS.clean.free⟩ ?_).1
    intro h0 path hpath x hx
    have hk : key.length < 65536 := by
      have := hfit.2.1
      have := hL.two'
      simp only [Item.key] at *
      omega
    rcases hS.holds with ⟨h0', -⟩ | ⟨-, ht, -⟩
    · exact absurd h0' h0
    · obtain ⟨path', p1, p2⟩ := findPath_spec (env := env) (t := t) hk h ht.wft hS.depth (by
        intro x hx; unfold maxPgno; simpa [hS.clean.rdonly] using (ht.bound x hx).2)
      rw [p2] at hpath
      cases hpath
      have hm := isPath_mem p1 x hx
      obtain ⟨p, hp, -⟩ := wft_pages h ht.wft x hm
      have h2 : 2 ≤ x := by
        have := hS.apart h0 x hm
        simp at this; omega
      cases hdx : t.getDirty x with
      | some q => rfl
      | none =>
        exfalso
        unfold getPage at hp
        rw [hdx] at hp
        simp only [hS.clean.rdonly, Bool.false_eq_true, if_false, hnew x h2] at hp
        cases hp

theorem load_go {L : Limits} (hL : L.Good) {env : Env} {id fuel : Nat} (hnew : ∀ x, 2 ≤ x → mapPage env x = .ub) (rest : List (Bytes × Bytes)) :
    ∀ {t : Txn} {h : Nat} {l : List (Bytes × Bytes)}, Loading L env id t h l → Ascending (l ++ rest) → (∀ e ∈ rest, L.Fits (.leaf e.1 e.2)) →
    (l ++ rest).length < L.fan ^ 31 → t.newLast + 34 * rest.length < 2 ^ 64 →
    ∃ t' h', puts env (fuel + 2) t rest = .ok (List.replicate rest.length .success, t') ∧ Loading L env id t' h' (l ++ rest) ∧
      t'.newLast ≤ t.newLast + 33 * rest.length := by
  induction rest with
  | nil => intro t h l hS _ _ _ _; exact ⟨t, h, rfl, by simpa using hS, by simp⟩
  | cons e rest ih =>
    obtain ⟨key, val⟩ := e
    intro t h l hS hs hfit hn h64
    rw [List.length_cons] at h64
    have hgt : ∀ x ∈ l.map Prod.fst, x < key := by
      intro x hx
      unfold Ascending at hs
      rw [List.map_append, List.map_cons, sorted_append] at hs
      exact hs.2.2 x hx key List.mem_cons_self
    have hn' := hn
    rw [List.length_append, List.length_cons] at hn'
    obtain ⟨t1, h1, a1, a2, a3⟩ := load_step hL (fuel := fuel) hnew (hfit (key, val) List.mem_cons_self) hS hgt (by omega) (by omega)
    obtain ⟨t', h', b1, b2, b3⟩ := ih a2 (by simpa using hs) (fun e he => hfit e (List.mem_cons_of_mem _ he)) (by simpa using hn) (by omega)
    refine ⟨t', h', ?_, by simpa using b2, by rw [List.length_cons]; omega⟩
    unfold puts
    simp only [a1, b1, Res.ok_bind]
    rfl

/-- C44 and C50 together, from the creation of the database on: pairs with strictly ascending keys, all
keys of the same length and all values of the same length, two to a page, are stored one after the
other in the first transaction of a new database, which is then committed.  Everything succeeds if the map is large
enough, and what is committed is exactly the pairs. -/
theorem load_and_commit_partial {mapPages ks vs fuel : Nat} {A : List (Bytes × Bytes)} (hs : (A.map Prod.fst).Pairwise (· < ·))
    (hsize : ∀ e ∈ A, e.1.length = ks ∧ e.2.length = vs) (h1 : 2 * (ks + vs + 6) ≤ 4078) (h2 : 2 * (ks + 12) ≤ 4078)
    (hn : A.length < (4078 / (ks + 12) / 2) ^ 31) (hmap : 34 * A.length + 3 < mapPages) (hcap : mapPages < 2 ^ 52) :
    ∃ env env1 t t' env' h hf fl, envCreate mapPages = .ok env ∧ beginWrite env = some (env1, t) ∧
      puts env1 (fuel + 2) t A = .ok (List.replicate A.length .success, t') ∧ commit env1 (fuel + 2) t' = .ok (.success, env') ∧
      env'.locked = false ∧ env'.readers = env.readers ∧ env'.mapPages = mapPages ∧
      DbOk env' h hf (fun k => A.lookup k) fl ∧ h < 32 ∧ metaFree env'.liveMeta = 0 ∧ (A ≠ [] → metaRoot env'.liveMeta ≠ 0) ∧
      (metaRoot env'.liveMeta ≠ 0 → Full (mapPage env') h (metaRoot env'.liveMeta)) ∧ metaTxnid env'.liveMeta ≤ 2 ∧
      metaLast env'.liveMeta ≤ 33 * A.length + 2 := by
  obtain ⟨env, c1, c2, hdb⟩ := create_empty (mapPages := mapPages) (by omega) hcap
  have c1' := c1
  unfold envCreate at c1
  rw [if_neg (by omega)] at c1
  simp only [Res.ok.injEq] at c1
  have hlm : env.liveMeta = metaPage 1 0 1 0 := by rw [← c1]; rfl
  have hfp : env.filePages = 2 := by rw [← c1]
  have hmp : env.mapPages = mapPages := by rw [← c1]
  have e1 : metaRoot env.liveMeta = 0 := by rw [hlm]; exact metaPage_root _ _ _ _
  have e2 : metaLast env.liveMeta = 1 := by rw [hlm]; exact metaPage_last _ _ _ _
  have e3 : metaFree env.liveMeta = 0 := by rw [hlm]; exact metaPage_free _ _ _ _
  have e4 : metaTxnid env.liveMeta = 1 := by rw [hlm]; exact metaPage_txnid _ _ _ _
  have hid : metaTxnid env.liveMeta + 1 < 2 ^ 64 := by rw [e4]; decide
  obtain ⟨env1, t, b1, rfl, b2, hW⟩ := begin_writing hdb c2 hid
  have hb : t.root = 0 ∧ t.freed = [] ∧ t.dirty = [] := by
    unfold beginWrite at b1
    rw [if_neg (by simp [c2])] at b1
    cases b1; exact ⟨e1, rfl, rfl⟩
  have hF : offLimits env 0 = [0, 1] := by
    unfold offLimits treePages
    rw [if_pos e3]
  have hnew : ∀ x, 2 ≤ x → mapPage { env with locked := true } x = .ub := by
    intro x hx
    unfold mapPage
    rw [if_neg (by rintro ⟨-, h⟩; have h : x < env.filePages := h; omega)]
  have hL := uniform_good h1 h2
  have hW' := hW
  rw [hF, e3, e1, e4] at hW
  have hS : Loading (uniform ks vs) { env with locked := true } 2 t 0 [] :=
    ⟨hW.clean, hW.idle, .inl ⟨hb.1, rfl⟩, by decide, fun h => absurd hb.1 h, fun h => absurd hb.1 h, fun h => absurd hb.1 h, hb.2.1, fun h => absurd rfl h⟩
  obtain ⟨t', h, d1, d2, d3⟩ := load_go hL (fuel := fuel) hnew A hS (by simpa [Ascending, Sorted] using hs) (by
    intro e he
    obtain ⟨e1, e2⟩ := hsize e he
    refine ⟨?_, ?_, fun _ => ⟨?_, ?_⟩⟩ <;> simp only [uniform, Item.key, Item.size] <;> omega) (by simpa [uniform, Limits.fan] using hn) (by omega)
  rw [List.nil_append] at d2
  have hWr : Writing { env with locked := true } (metaTxnid env.liveMeta + 1) (metaFree env.liveMeta) (metaRoot env.liveMeta) (offLimits env 0) t' h
      (fun k => A.lookup k) := by
    rw [hF, e3, e1, e4]
    exact ⟨d2.clean, d2.idle, ⟨A, d2.holds, fun _ => rfl⟩, d2.apart⟩
  obtain ⟨env', h', hf', fl', k1, k2, k3, k4, k5, k6, -, -, k7, k8, k9, k10, k11⟩ := commit_detail (env := { env with locked := true }) fuel
    (hdb.congr rfl rfl rfl rfl) hid hWr ⟨fun hx => absurd d2.freed hx, fun hx => absurd d2.freed hx⟩ (by
      show t'.newLast + 1 < env.mapPages
      omega)
  have hroot : metaRoot env'.liveMeta ≠ 0 → h' = h ∧ Full (mapPage env') h (metaRoot env'.liveMeta) := by
    intro h0
    rw [k7] at h0 ⊢
    refine ⟨k8 h0, full_frame h (g := getPage { env with locked := true } t') ?_ (d2.full h0)⟩
    intro x hx
    exact k9 x (by unfold treePages; rw [if_neg h0]; exact hx)
  have hlast : metaLast env'.liveMeta ≤ 33 * A.length + 2 := by
    by_cases hd : t'.dirty = []
    · unfold commit commitWith at k1
      rw [if_pos hd] at k1
      cases k1
      show metaLast env.liveMeta ≤ _
      omega
    · have := k11 hd
      omega
  by_cases h0 : metaRoot env'.liveMeta = 0
  · obtain ⟨l, hl, hlm⟩ := k2.main
    rcases hl with ⟨-, rfl⟩ | ⟨hx, -⟩
    · have hp : ∀ h, treePages (mapPage env') h (metaRoot env'.liveMeta) = [] := fun h => by unfold treePages; rw [if_pos h0]
      have hdb0 : DbOk env' 0 hf' (fun k => A.lookup k) fl' :=
        { k2 with
          main := ⟨[], .inl ⟨h0, rfl⟩, hlm⟩
          low := by rw [hp]; simp
          apart := fun x hx => by
            have := k2.apart x hx
            rw [hp] at this ⊢; exact this }
      exact ⟨env, _, t, t', env', 0, hf', fl', c1', b1, d1, k1, k3, k4, k5.trans hmp, hdb0, by decide, (k10 d2.freed).trans e3,
        fun hA hx => d2.some hA (k7.symm.trans hx), fun hx => absurd h0 hx, by have : metaTxnid env'.liveMeta ≤ metaTxnid env.liveMeta + 1 := k6; omega, hlast⟩
    · exact absurd h0 hx
  · obtain ⟨q1, q2⟩ := hroot h0
    subst q1
    exact ⟨env, _, t, t', env', h', hf', fl', c1', b1, d1, k1, k3, k4, k5.trans hmp, k2, d2.depth, (k10 d2.freed).trans e3,
      fun _ => h0, fun _ => q2, by have : metaTxnid env'.liveMeta ≤ metaTxnid env.liveMeta + 1 := k6; omega, hlast⟩

end Verif.Db
