import Verif.Cache.Lemmas

/-!
# Property theorems for the cache: C59, C60
-/

namespace Verif.Cache

open Verif.Page Verif.Db

/-! ## C59: sweeping -/

/-- What is left of a map when everything outside `vis` is removed. -/
def kept (m : KvMap) (vis : List Bytes) : KvMap := fun k => if k ∈ vis then m k else none

theorem fits_mono {g : View} {key : Bytes} {s s' : Nat} (hs : s' ≤ s) (h : Nat) : ∀ {n : Nat}, Fits g key s h n → Fits g key s' h n := by
  induction h with
  | zero => intro n hf p hp; have := hf p hp; omega
  | succ h ih => intro n hf p A k c B hp hr; exact ih (hf p A k c B hp hr)

theorem length_le_of_nodup : ∀ (l m : List Nat), l.Nodup → (∀ s ∈ l, s ∈ m) → l.length ≤ m.length := by
  intro l
  induction l with
  | nil => intro m _ _; exact Nat.zero_le _
  | cons a l ih =>
    intro m hnd hs
    rw [List.nodup_cons] at hnd
    have ha := hs a (by simp)
    have := ih (m.erase a) hnd.2 (by
      intro s hsl
      have hne : s ≠ a := by rintro rfl; exact hnd.1 hsl
      exact (List.mem_erase_of_ne hne).2 (hs s (by simp [hsl])))
    rw [List.length_erase_of_mem ha] at this
    have hpos := List.length_pos_of_mem ha
    simp only [List.length_cons]; omega

/-- The list of freed pages of a transaction that changes all pages of the tree fits into the Free
DB: 508 pages if there is none yet. -/
structure SweepRoom (env : Env) (h hf : Nat) : Prop where
  fresh : metaFree env.liveMeta = 0 → 8 * (treePages (mapPage env) h (metaRoot env.liveMeta)).length + 14 ≤ 4078
  leaf : metaFree env.liveMeta ≠ 0 → Fits (mapPage env) (le 8 (metaTxnid env.liveMeta + 1))
    (12 + 8 * (treePages (mapPage env) h (metaRoot env.liveMeta)).length) hf (metaFree env.liveMeta)

theorem lookup_filter_keys (l : List (Bytes × Bytes)) (vis : List Bytes) (k : Bytes) :
    (l.filter fun kv => kv.1 ∈ vis).lookup k = if k ∈ vis then l.lookup k else none := by
  induction l with
  | nil => simp
  | cons a l ih =>
    obtain ⟨a, v⟩ := a
    by_cases hk : k = a
    · subst hk
      by_cases hv : k ∈ vis
      · rw [List.filter_cons_of_pos (by simpa using hv)]; simp [hv]
      · rw [List.filter_cons_of_neg (by simpa using hv), ih, if_neg hv, if_neg hv]
    · have hb : (k == a) = false := by simpa using hk
      by_cases hv : a ∈ vis
      · rw [List.filter_cons_of_pos (by simpa using hv), List.lookup_cons, List.lookup_cons, hb, ih]
      · rw [List.filter_cons_of_neg (by simpa using hv), ih, List.lookup_cons, hb]

/-- Enough steps for the loop: one for each entry, and the depth of the tree. -/
def sweepSteps (env : Env) (h : Nat) : Nat :=
  (if metaRoot env.liveMeta = 0 then 0 else (contents (mapPage env) h (metaRoot env.liveMeta)).length) + h + 2

/-- What the loop does to the map. -/
theorem sweep_body {env : Env} {h hf : Nat} {m : KvMap} {fl : List (Bytes × Bytes)} (vis : List Bytes) (hdb : DbOk env h hf m fl)
    (hl : env.locked = false) (hid : metaTxnid env.liveMeta + 1 < 2 ^ 64) (hd : h < 32)
    (hfull : metaRoot env.liveMeta ≠ 0 → Full (mapPage env) h (metaRoot env.liveMeta)) :
    ∃ t, Db.beginWrite env = some ({ env with locked := true }, t) ∧ t.newLast = metaLast env.liveMeta ∧ ∀ fuel, sweepSteps env h ≤ fuel →
      ∃ r t', cursorGet { env with locked := true } t fuel Cursor.opened (.seek .first) = .ok r ∧
        sweepFrom { env with locked := true } vis fuel fuel t r = .ok (.success, t') ∧
        Writing { env with locked := true } (metaTxnid env.liveMeta + 1) (metaFree env.liveMeta) (metaRoot env.liveMeta) (offLimits env hf) t' h (kept m vis) ∧
        t'.newLast = metaLast env.liveMeta ∧ t'.freed.length ≤ (treePages (mapPage env) h (metaRoot env.liveMeta)).length ∧
        (metaRoot env.liveMeta ≠ 0 → t'.root = metaRoot env.liveMeta ∧
          pagesOf (getPage { env with locked := true } t') h (metaRoot env.liveMeta) = pagesOf (mapPage env) h (metaRoot env.liveMeta)) ∧
        t.dirty = [] ∧ t.freed = [] := by
  obtain ⟨env', t, b1, rfl, b3, hW⟩ := begin_writing hdb hl hid
  have hdirty : t.dirty = [] ∧ t.freed = [] ∧ t.root = metaRoot env.liveMeta := by
    unfold Db.beginWrite at b1
    rw [if_neg (by simp [hl])] at b1
    cases b1; exact ⟨rfl, rfl, rfl⟩
  obtain ⟨hdirty, hfreed, hroot⟩ := hdirty
  have hg : getPage { env with locked := true } t = mapPage env := by
    funext x
    unfold getPage Txn.getDirty
    rw [hdirty]
    simp; rfl
  have hgm : mapPage { env with locked := true } = mapPage env := rfl
  obtain ⟨l, hh, hlm⟩ := hW.map
  have hsort := holds_sorted hh
  refine ⟨t, b1, b3, fun fuel hfuel => ?_⟩
  unfold sweepSteps at hfuel
  have hf2 : h < fuel := by omega
  have hf1 : l.length + 2 ≤ fuel := by
    rcases hh with ⟨-, rfl⟩ | ⟨h0, -, hc⟩
    · simp; omega
    · rw [hg, hroot] at hc
      rw [if_neg (by rw [← hroot]; exact h0), hc] at hfuel
      omega
  rcases hh with ⟨h0, rfl⟩ | ⟨h0, ht, hc⟩
  · have hm : kept m vis = m := by
      funext k
      have : m k = none := (hlm k).symm
      unfold kept
      split
      · rfl
      · exact this.symm
    rw [hm]
    obtain ⟨n, rfl⟩ : ∃ n, fuel = n + 1 := ⟨fuel - 1, by omega⟩
    have hmv : move { env with locked := true } t (n + 1) Cursor.opened (.seek .first) = .ok (.notfound, ⟨[], true⟩) := by
      unfold move; simp only [seek, if_pos h0]
    refine ⟨_, t, cursorGet_fail hmv (by decide), ?_, hW, b3, by rw [hfreed]; exact Nat.zero_le _,
      fun hn => absurd (hroot.symm.trans h0) hn, hdirty, hfreed⟩
    rw [sweepFrom]
  · have hfull' : Full (getPage { env with locked := true } t) h t.root := by
      rw [hg, hroot]; exact hfull (by rw [← hroot]; exact h0)
    obtain ⟨st, kv, B, a1, a2⟩ := seek_first (H := h) hd hf2 h0 ((shape_of_wft h ht.wft).2 hfull')
    have hcc := at_contents a2
    rw [hc] at hcc
    have hsh : Shape (mapPage env) True h t.root := by
      have := (shape_of_wft h ht.wft).2 hfull'
      rw [hg] at this; exact this
    have hS : Sweeping (mapPage { env with locked := true }) { env with locked := true } h (metaTxnid env.liveMeta + 1) (metaFree env.liveMeta) t.root
        (offLimits env hf) vis (metaLast env.liveMeta) t [] (kv :: B) := by
      constructor
      · refine ⟨m, by rw [hroot]; exact hW, fun k => ?_⟩
        rw [← hlm, hcc]; rfl
      · rw [hcc] at hsort; exact hsort
      · intro kv' hk'
        refine contents_key_lt (g := getPage { env with locked := true } t) h (n := t.root) ?_
        rw [hc, hcc]; exact hk'
      · rfl
      · intro x hx p hp _; rw [hg]; exact hp
      · intro x hx p hp _ _
        unfold Txn.getDirty; rw [hdirty]; rfl
      · rw [hg]; rfl
      · intro x hx
        unfold Txn.getDirty at hx; rw [hdirty] at hx; cases hx
      · exact ⟨by rw [hfreed]; exact .nil, by rw [hfreed]; simp⟩
      · exact b3
    rw [hg] at a2
    have hwft := ht.wft
    rw [hg] at hwft
    obtain ⟨t', e1, e2⟩ := sweepFrom_spec (env := { env with locked := true }) (t0 := t) hdirty hd hf2 h0 hwft B (n := fuel) hS a2
      (by rw [hcc] at hf1; simp at hf1; omega)
    refine ⟨_, t', cursorGet_seek a1 (by rw [hg]; exact a2), e1, ?_, e2.noNew, ?_,
      fun _ => ⟨e2.same.trans hroot, by rw [← hroot]; exact e2.pages⟩, hdirty, hfreed⟩
    · obtain ⟨m', w1, w2⟩ := e2.writing
      have : m' = kept m vis := by
        funext k
        rw [← w2, List.append_nil, ← hcc]
        unfold kept
        rw [← hlm]
        exact lookup_filter_keys l vis k
      rw [← this, ← hroot]; exact w1
    · have hsub : ∀ x ∈ t'.freed, x ∈ treePages (mapPage env) h (metaRoot env.liveMeta) := by
        intro x hx
        unfold treePages
        rw [if_neg (by rw [← hroot]; exact h0), ← hroot]
        exact e2.dirty x (e2.freed.2 x hx)
      exact length_le_of_nodup _ _ e2.freed.1 hsub

/-- C59, for a database whose committed state is well-formed with no empty leaf, at most 32 levels
deep, with room for the list of changed pages: the sweep succeeds and leaves exactly the visited
entries with their values, and the set of visited paths is empty. -/
theorem sweep_keeps_visited_partial {c : Cache} {h hf : Nat} {m : KvMap} {fl : List (Bytes × Bytes)} (pid tid : Nat) (hdb : DbOk c.env h hf m fl)
    (hl : c.env.locked = false) (hid : metaTxnid c.env.liveMeta + 1 < 2 ^ 64) (hd : h < 32)
    (hfull : metaRoot c.env.liveMeta ≠ 0 → Full (mapPage c.env) h (metaRoot c.env.liveMeta))
    (hroom : SweepRoom c.env h hf) (hmap : metaLast c.env.liveMeta + 1 < c.env.mapPages) {fuel : Nat} (hfuel : sweepSteps c.env h ≤ fuel) :
    ∃ c' h' hf' fl', sweep c fuel none pid tid = .ok (.success, c') ∧ DbOk c'.env h' hf' (kept m c.visited) fl' ∧
      c'.visited = [] ∧ c'.txn = none ∧ c'.env.locked = false ∧ c'.env.readers = c.env.readers := by
  obtain ⟨t, b1, b2, hbody⟩ := sweep_body c.visited hdb hl hid hd hfull
  have h2 : 2 ≤ fuel := by unfold sweepSteps at hfuel; omega
  obtain ⟨fuel, rfl⟩ : ∃ f, fuel = f + 2 := ⟨fuel - 2, by omega⟩
  obtain ⟨r, t', e1, e2, e3, e4, e5, -⟩ := hbody (fuel + 2) (by omega)
  have hdb' : DbOk { c.env with locked := true } h hf m fl := hdb.congr rfl rfl rfl rfl
  have hroom' : FreeRoom { c.env with locked := true } (metaTxnid c.env.liveMeta + 1) (metaFree c.env.liveMeta) hf t' := by
    constructor
    · intro _ h0; have := hroom.fresh h0; omega
    · intro _ h0; exact fits_mono (by omega) hf (hroom.leaf h0)
  obtain ⟨env', h', hf', fl', k1, k2, k3, k4, -⟩ := commit_saves_partial (env := { c.env with locked := true }) fuel hdb' hid e3 hroom' (by
    rw [e4]; exact hmap)
  have hro : t'.rdonly = false := e3.clean.rdonly
  refine ⟨⟨env', none, []⟩, h', hf', fl', ?_, k2, rfl, rfl, k3, k4⟩
  unfold sweep beginWrite
  rw [b1]
  simp only [e1, Res.ok_bind, e2, if_true, commitWrite, hro, Bool.false_eq_true, if_false]
  unfold commit at k1
  rw [k1]
  rfl

/-- Whatever happens, a sweep that reports success has emptied the set of visited paths, and one
that fails has left it as it was; no transaction is left open. -/
theorem sweep_visited {c c' : Cache} {fuel pid tid : Nat} {fail : Option Nat} {s : Status} (h : sweep c fuel fail pid tid = .ok (s, c')) :
    (s = .success → c'.visited = []) ∧ (s ≠ .success → c'.visited = c.visited) ∧ c'.txn = none := by
  unfold sweep at h
  split at h
  · cases h
  · rename_i c1 hb
    have hv : c1.visited = c.visited := by
      unfold beginWrite at hb
      split at hb
      · cases hb
      · cases hb; rfl
    split at h
    · cases h
    · rename_i t ht
      obtain ⟨r, -, h⟩ := Res.bind_eq_ok.1 h
      obtain ⟨u, -, h⟩ := Res.bind_eq_ok.1 h
      split at h
      · obtain ⟨k, hk, h⟩ := Res.bind_eq_ok.1 h
        have hk' : k.2.txn = none ∧ k.2.visited = c1.visited := by
          unfold commitWrite at hk
          dsimp only at hk
          split at hk
          · cases hk; exact ⟨rfl, rfl⟩
          · obtain ⟨q, -, hk⟩ := Res.bind_eq_ok.1 hk
            cases hk; exact ⟨rfl, rfl⟩
        split at h
        · cases h; exact ⟨fun _ => rfl, fun hn => absurd rfl hn, hk'.1⟩
        · rename_i hne
          cases h; exact ⟨fun hs => absurd hs hne, fun _ => hk'.2.trans hv, hk'.1⟩
      · rename_i hne
        cases h
        exact ⟨fun hs => absurd hs hne, fun _ => hv, rfl⟩

end Verif.Cache
