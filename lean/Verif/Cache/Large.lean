import Verif.Cache.Hist
import Verif.Db.FreeProps

/-!
# Sweeping a large cache (C59, C79)
-/

namespace Verif.Cache

open Verif.Page Verif.Db

/-! ## Every page that has been copied is listed as free -/

def Listed (t : Txn) : Prop := ∀ x, (t.getDirty x).isSome → x ∈ t.freed

theorem listed_take {env : Env} {t : Txn} {n : Nat} {r : Nat × Txn} (h : getWritable env t n = .ok r) (ht : Listed t) : Listed r.2 := by
  unfold getWritable at h
  obtain ⟨p, -, h⟩ := Res.bind_eq_ok.1 h
  split at h
  · cases h; exact ht
  · cases h
    intro x hx
    show x ∈ t.freed ++ [pgno p]
    have hx : ((t.setDirty (pgno p) p).getDirty x).isSome := hx
    rw [getDirty_set] at hx
    split at hx
    · rename_i he; simp [he]
    · exact List.mem_append_left _ (ht x hx)

theorem listed_cow {env : Env} {t : Txn} {n : Nat} {r : Nat × Txn} (h : cow env t n = .ok r) (ht : Listed t) : Listed r.2 := by
  unfold cow at h
  split at h
  · cases h; exact ht
  · exact listed_take h ht

theorem listed_cowAll {env : Env} (L : List Nat) : ∀ {t t' : Txn}, cowAll env t L = .ok t' → Listed t → Listed t' := by
  induction L with
  | nil => intro t t' h ht; cases h; exact ht
  | cons n L ih =>
    intro t t' h ht
    rw [cowAll] at h
    obtain ⟨r, h1, h⟩ := Res.bind_eq_ok.1 h
    exact ih h (listed_cow h1 ht)

theorem listed_cowPath {env : Env} {L : List Nat} {t : Txn} {r : Nat × Txn} (h : cowPath env t L = .ok r) (ht : Listed t) : Listed r.2 := by
  cases L with
  | nil => cases h
  | cons n L =>
    rw [cowPath] at h
    obtain ⟨r1, h1, h⟩ := Res.bind_eq_ok.1 h
    obtain ⟨t2, h2, h⟩ := Res.bind_eq_ok.1 h
    cases h
    exact listed_cowAll L h2 (listed_cow h1 ht)

theorem listed_del {env : Env} {t : Txn} {key : Bytes} {r : Status × Txn} (h : del env t key = .ok r) (ht : Listed t) : Listed r.2 := by
  unfold del at h
  split at h
  · cases h; exact ht
  · split at h
    · cases h; exact ht
    · obtain ⟨path, -, h⟩ := Res.bind_eq_ok.1 h
      split at h
      · cases h; exact ht
      · obtain ⟨leaf, -, h⟩ := Res.bind_eq_ok.1 h
        obtain ⟨f, -, h⟩ := Res.bind_eq_ok.1 h
        split at h
        · obtain ⟨c, hc, h⟩ := Res.bind_eq_ok.1 h
          have hl := listed_cowPath hc ht
          dsimp only at h
          split at h
          · cases h; exact hl
          · rename_i p hp
            obtain ⟨d, -, h⟩ := Res.bind_eq_ok.1 h
            simp only [Res.ok.injEq] at h
            subst h
            intro x hx
            dsimp only at hx ⊢
            rw [getDirty_set] at hx
            show x ∈ c.2.freed
            split at hx
            · rename_i he
              subst he
              exact hl _ (by rw [hp]; rfl)
            · exact hl x hx
        · cases h; exact ht

theorem listed_sweepFrom {env : Env} {vis : List Bytes} {fuel : Nat} (n : Nat) : ∀ {t : Txn} {r : Cursor × Except Status (Bytes × Bytes)}
    {s : Status × Txn}, sweepFrom env vis fuel n t r = .ok s → Listed t → Listed s.2 := by
  induction n with
  | zero => intro t r s h; cases h
  | succ n ih =>
    intro t r s h ht
    rw [sweepFrom] at h
    split at h
    · cases h; exact ht
    · cases h; exact ht
    · split at h
      · cases h
      · split at h
        · obtain ⟨r', -, h⟩ := Res.bind_eq_ok.1 h
          exact ih h ht
        · obtain ⟨d, hd, h⟩ := Res.bind_eq_ok.1 h
          have hl := listed_del hd ht
          split at h
          · obtain ⟨r', -, h⟩ := Res.bind_eq_ok.1 h
            exact ih h hl
          · cases h; exact hl

/-! ## How many entries a page holds -/

theorem nodup_length_le {α : Type} [BEq α] [LawfulBEq α] : ∀ (l m : List α), l.Nodup → (∀ s ∈ l, s ∈ m) → l.length ≤ m.length := by
  intro l
  induction l with
  | nil => intro m _ _; exact Nat.zero_le _
  | cons a l ih =>
    intro m hnd hs
    rw [List.nodup_cons] at hnd
    have ha := hs a (by simp)
    have := ih (m.erase a) hnd.2 (by
      intro s hsl
      have hne : s ≠ a := by rintro rfl; exact hnd.1 hsl
      exact (List.mem_erase_of_ne hne).2 (hs s (by simp [hsl])))
    rw [List.length_erase_of_mem ha] at this
    have hpos := List.length_pos_of_mem ha
    simp only [List.length_cons]; omega

/-- Intervals of length at least `s` that do not overlap, between `a` and `b`. -/
theorem packing {f z : Nat → Nat} {a b s : Nat} (n : Nat) (hin : ∀ i < n, a ≤ f i ∧ f i + z i ≤ b) (hs : ∀ i < n, s ≤ z i)
    (hap : ∀ i j, i < n → j < n → i ≠ j → f i + z i ≤ f j ∨ f j + z j ≤ f i) : n * s ≤ b - a := by
  have key : ((List.range n).flatMap fun i => (List.range s).map fun k => f i + k).Nodup := by
    unfold List.Nodup
    rw [List.pairwise_flatMap]
    refine ⟨?_, ?_⟩
    · intro i _
      rw [List.pairwise_map]
      exact List.Pairwise.imp (fun h => by omega) (List.nodup_range (n := s))
    · have : (List.range n).Pairwise fun i j => i ≠ j := List.nodup_range
      refine List.Pairwise.imp_of_mem ?_ this
      intro i j hi hj hij x hx y hy
      rw [List.mem_range] at hi hj
      obtain ⟨k, hk, rfl⟩ := List.mem_map.1 hx
      obtain ⟨l, hl, rfl⟩ := List.mem_map.1 hy
      rw [List.mem_range] at hk hl
      have h1 := hs i hi
      have h2 := hs j hj
      rcases hap i j hi hj hij with h | h <;> omega
  have := nodup_length_le _ (List.range' a (b - a)) key (by
    intro x hx
    obtain ⟨i, hi, hx⟩ := List.mem_flatMap.1 hx
    obtain ⟨k, hk, rfl⟩ := List.mem_map.1 hx
    rw [List.mem_range] at hi hk
    have h1 := hin i hi
    have h2 := hs i hi
    rw [List.mem_range'_1]
    omega)
  rw [List.length_range', List.length_flatMap] at this
  have hsum : (List.map (fun i => (List.map (fun k => f i + k) (List.range s)).length) (List.range n)).sum = n * s := by
    simp [List.map_const']
  omega

theorem leaf_capacity {p : Page} (wf : WF p) (hl : isLeaf p = true) {s : Nat} (hs : ∀ kv ∈ kvs p, s ≤ 4 + kv.1.length + kv.2.length) :
    (kvs p).length * (s + 2) ≤ 4078 := by
  have hlen : (kvs p).length = numKeys p := by unfold kvs items; simp
  have hz : ∀ i < numKeys p, s ≤ nodeSize p (isLeaf p) (slot p i) := by
    intro i hi
    have := hs (_, _) (by
      unfold kvs items
      rw [List.map_map]
      exact List.mem_map.2 ⟨i, List.mem_range.2 hi, rfl⟩)
    simp only [itemAt, hl, if_true, Item.key, Item.val, slice_length] at this
    rw [hl]
    simpa [nodeSize, baseSize, nodeKs, nodeDs, ksOff] using this
  have := packing (numKeys p) wf.inside hz wf.apart
  have h1 := wf.low
  have h2 := wf.gap
  have h3 := wf.top
  rw [hlen, Nat.mul_add]
  unfold hdrSize at h1
  unfold pageSize at h3 this
  omega

/-- A pair of the tree is in one of its leaves. -/
theorem contents_leaf {g : View} (h : Nat) : ∀ {lo hi : Option Bytes} {n : Nat}, WFT g h lo hi n → ∀ kv ∈ contents g h n,
    ∃ x ∈ pagesOf g h n, ∃ p, g x = .ok p ∧ isLeaf p = true ∧ WF p ∧ kv ∈ kvs p := by
  induction h with
  | zero =>
    rintro lo hi n ⟨p, h1, -, h3, h4, -⟩ kv hkv
    rw [contents_zero h1] at hkv
    exact ⟨n, by simp [pagesOf], p, h1, h4, h3, hkv⟩
  | succ h ih =>
    rintro lo hi n ⟨p, h1, -, h3, h4, -, h6⟩ kv hkv
    rw [contents_succ h1] at hkv
    obtain ⟨e, he, hkv⟩ := List.mem_flatMap.1 hkv
    obtain ⟨l, u, hw⟩ := kids_mem h6 he
    obtain ⟨x, hx, y⟩ := ih hw kv hkv
    refine ⟨x, ?_, y⟩
    rw [pagesOf_succ h1]
    exact List.mem_cons_of_mem _ (List.mem_flatMap.2 ⟨e, he, hx⟩)

/-! ## Commits with too many freed pages -/

theorem commit_many {fuel : Nat} {fail : Option Nat} {env : Env} {t : Txn} {a : Nat × Txn} (hr : t.freeRoot = 0)
    (hd : t.dirty ≠ []) (hal : alloc env fuel t = .ok a) (ha : a.1 < 2 ^ 64) (h1 : 508 < t.freed.length) :
    commitWith (alloc env fuel) fail env t = .ok (.nospc, { env with locked := false }) ∨ commitWith (alloc env fuel) fail env t = .ub := by
  have hf : t.freed ≠ [] := by rintro h; rw [h] at h1; simp at h1
  unfold commitWith
  rw [if_neg hd]
  unfold commitActs
  rw [populate_new hf hr]
  by_cases hs : 4078 < (12 + 8 * t.freed.length) % 65536 + 2
  · left
    rw [newTree_refuses hal ha (by rw [le_length, flatMap_le_length]; omega), Res.ok_bind]
    rfl
  · right
    rw [newTree_overruns hal ha (by rw [le_length, flatMap_le_length]; omega) (by rw [le_length, flatMap_le_length]; omega)]
    rfl

/-! ## The sweep -/

/-- The leaves of the tree with an entry that has not been visited. -/
def stale (g : View) (vis : List Bytes) (x : Nat) : Bool :=
  match g x with
  | .ok p => isLeaf p && (kvs p).any fun kv => !decide (kv.1 ∈ vis)
  | _ => false

theorem stale_iff {g : View} {vis : List Bytes} {x : Nat} :
    stale g vis x = true ↔ ∃ p, g x = .ok p ∧ isLeaf p = true ∧ ∃ kv ∈ kvs p, kv.1 ∉ vis := by
  unfold stale
  cases g x with
  | ok p => simp
  | ub => simp
  | div => simp

/-- C59 and C79 are false of large caches: if the entries to remove are spread over more than 508 leaves
and the database has no Free DB yet, the sweep fails with "no space" and removes nothing (or
overruns a page), however much room there is. -/
theorem sweep_fails {c : Cache} {h hf : Nat} {m : KvMap} {fl : List (Bytes × Bytes)} (pid tid : Nat) (fail : Option Nat) (hdb : DbOk c.env h hf m fl)
    (hl : c.env.locked = false) (hid : metaTxnid c.env.liveMeta + 1 < 2 ^ 64) (hd : h < 32) (h0 : metaRoot c.env.liveMeta ≠ 0)
    (hfull : Full (mapPage c.env) h (metaRoot c.env.liveMeta)) (hfree : metaFree c.env.liveMeta = 0) {fuel : Nat} (hfuel : sweepSteps c.env h ≤ fuel)
    (hmany : 508 < ((pagesOf (mapPage c.env) h (metaRoot c.env.liveMeta)).filter (stale (mapPage c.env) c.visited)).length) :
    sweep c fuel fail pid tid = .ok (.nospc, { c with txn := none }) ∨ sweep c fuel fail pid tid = .ub := by
  obtain ⟨t, b1, b2, hbody⟩ := sweep_body c.visited hdb hl hid hd (fun _ => hfull)
  have h2 : 2 ≤ fuel := by unfold sweepSteps at hfuel; omega
  obtain ⟨fuel, rfl⟩ : ∃ f, fuel = f + 2 := ⟨fuel - 2, by omega⟩
  obtain ⟨r, t', e1, e2, e3, e4, -, e5, e6, e7⟩ := hbody (fuel + 2) (by omega)
  obtain ⟨e5, e8⟩ := e5 h0
  have hlist : Listed t' := listed_sweepFrom _ e2 (by
    intro x hx; unfold Txn.getDirty at hx; rw [e6] at hx; cases hx)
  obtain ⟨l0, hl0, -⟩ := hdb.main
  have ht0 : Tree c.env (readTxn c.env) h := by
    rcases hl0 with ⟨hx, -⟩ | ⟨-, ht, -⟩
    · exact absurd hx h0
    · exact ht
  obtain ⟨l, hl', hlm⟩ := e3.map
  have hro := e3.clean.rdonly
  have ht' : Tree { c.env with locked := true } t' h ∧ contents (getPage { c.env with locked := true } t') h t'.root = l := by
    rcases hl' with ⟨hx, -⟩ | ⟨-, ht, hc⟩
    · rw [e5] at hx; exact absurd hx h0
    · exact ⟨ht, hc⟩
  have hsub : ∀ x ∈ (pagesOf (mapPage c.env) h (metaRoot c.env.liveMeta)).filter (stale (mapPage c.env) c.visited), x ∈ t'.freed := by
    intro x hx
    rw [List.mem_filter] at hx
    obtain ⟨p, p1, p2, kv, p3, p4⟩ := stale_iff.1 hx.2
    apply hlist
    cases hdx : t'.getDirty x with
    | some q => rfl
    | none =>
      exfalso
      have hg : getPage { c.env with locked := true } t' x = .ok p := by
        unfold getPage
        rw [hdx]
        simp; exact p1
      have hk := leaf_pairs h ((shape_of_wft h ht'.1.wft).1) x (by rw [e5, e8]; exact hx.1) p hg p2 kv p3
      rw [ht'.2] at hk
      have := lookup_mem (holds_sorted hl') hk
      rw [hlm] at this
      unfold kept at this
      rw [if_neg p4] at this
      cases this
  have hnd : ((pagesOf (mapPage c.env) h (metaRoot c.env.liveMeta)).filter (stale (mapPage c.env) c.visited)).Nodup :=
    List.Pairwise.filter _ ht0.nodup
  have hlen := length_le_of_nodup _ _ hnd hsub
  have hdne : t'.dirty ≠ [] := by
    intro hx
    obtain ⟨x, hx'⟩ := List.exists_mem_of_length_pos (Nat.lt_of_le_of_lt (Nat.zero_le _) hmany)
    have hx1 := hsub x hx'
    rw [List.mem_filter] at hx'
    obtain ⟨p, p1, p2, kv, p3, p4⟩ := stale_iff.1 hx'.2
    have hg : getPage { c.env with locked := true } t' x = .ok p := by
      unfold getPage Txn.getDirty
      rw [hx]
      simp; exact p1
    have hk := leaf_pairs h ((shape_of_wft h ht'.1.wft).1) x (by rw [e5, e8]; exact hx'.1) p hg p2 kv p3
    rw [ht'.2] at hk
    have := lookup_mem (holds_sorted hl') hk
    rw [hlm] at this
    unfold kept at this
    rw [if_neg p4] at this
    cases this
  have hal := alloc_quiet (env := { c.env with locked := true }) (fuel := fuel) (.none hfree) e3.clean
  have hcap := hdb.cap
  have hmap := hdb.map
  have hc := commit_many (fail := fail) (e3.clean.free.trans hfree) hdne hal (by
    show t'.newLast + 1 < 2 ^ 64; rw [e4]; omega) (by omega)
  have henv : ({ c.env with locked := false } : Env) = c.env := by
    rw [← hl]
  unfold sweep beginWrite
  rw [b1]
  simp only [e1, Res.ok_bind, e2, if_true, commitWrite, hro, Bool.false_eq_true, if_false]
  rcases hc with hc | hc
  · left
    rw [hc, Res.ok_bind, Res.ok_bind]
    simp only [henv]
    rw [if_neg (by decide)]
  · right
    rw [hc]
    rfl

/-- The same in terms of entries: a leaf holds at most 88 records, so more than 44704 records to
remove are too many. -/
theorem sweep_of_many_fails {c : Cache} {h hf : Nat} {m : KvMap} {fl : List (Bytes × Bytes)} (pid tid : Nat) (fail : Option Nat) (hdb : DbOk c.env h hf m fl)
    (hl : c.env.locked = false) (hid : metaTxnid c.env.liveMeta + 1 < 2 ^ 64) (hd : h < 32) (h0 : metaRoot c.env.liveMeta ≠ 0)
    (hfull : Full (mapPage c.env) h (metaRoot c.env.liveMeta)) (hfree : metaFree c.env.liveMeta = 0) {fuel : Nat} (hfuel : sweepSteps c.env h ≤ fuel)
    (hrec : Records m) {ks : List Bytes} (hks : ks.Nodup) (hold : ∀ k ∈ ks, m k ≠ none ∧ k ∉ c.visited) (hmany : 508 * 88 < ks.length) :
    sweep c fuel fail pid tid = .ok (.nospc, { c with txn := none }) ∨ sweep c fuel fail pid tid = .ub := by
  refine sweep_fails pid tid fail hdb hl hid hd h0 hfull hfree hfuel ?_
  obtain ⟨l, hl', hlm⟩ := hdb.main
  rcases hl' with ⟨hx, -⟩ | ⟨-, ht, hc⟩
  · exact absurd hx h0
  have hmem : ∀ {k v : Bytes}, l.lookup k = some v → (k, v) ∈ l := by
    intro k v hk
    clear hc hlm
    induction l with
    | nil => cases hk
    | cons a l ih =>
      obtain ⟨a, w⟩ := a
      rw [List.lookup_cons] at hk
      split at hk
      · rename_i he
        have : k = a := by simpa using he
        cases hk; rw [this]; simp
      · exact List.mem_cons_of_mem _ (ih hk)
  have hsort : Sorted (l.map Prod.fst) := holds_sorted (.inr ⟨h0, ht, hc⟩)
  have hg : getPage c.env (readTxn c.env) = mapPage c.env := rfl
  have hr : (readTxn c.env).root = metaRoot c.env.liveMeta := rfl
  have hwft := ht.wft
  rw [hg, hr] at hwft hc
  let L := (pagesOf (mapPage c.env) h (metaRoot c.env.liveMeta)).filter (stale (mapPage c.env) c.visited)
  let page : Nat → List Bytes := fun x => match mapPage c.env x with
    | .ok p => (kvs p).map Prod.fst
    | _ => []
  have hin : ∀ k ∈ ks, k ∈ L.flatMap page := by
    intro k hk
    obtain ⟨h1, h2⟩ := hold k hk
    cases hv : m k with
    | none => exact absurd hv h1
    | some v =>
      have hkv : (k, v) ∈ contents (mapPage c.env) h (metaRoot c.env.liveMeta) := by
        rw [hc]; exact hmem ((hlm k).trans hv)
      obtain ⟨x, x1, p, x2, x3, -, x4⟩ := contents_leaf h hwft _ hkv
      refine List.mem_flatMap.2 ⟨x, List.mem_filter.2 ⟨x1, stale_iff.2 ⟨p, x2, x3, _, x4, h2⟩⟩, ?_⟩
      show k ∈ page x
      simp only [page, x2]
      exact List.mem_map.2 ⟨_, x4, rfl⟩
  have hsz : ∀ x ∈ L, (page x).length ≤ 88 := by
    intro x hx
    obtain ⟨p, p1, p2, -⟩ := stale_iff.1 (List.mem_filter.1 hx).2
    obtain ⟨q, q1, -, q2⟩ := wft_pages h hwft x (List.mem_filter.1 hx).1
    rw [p1] at q1; cases q1
    have := leaf_capacity q2 p2 (s := 44) (by
      intro kv hkv
      have hkv' := leaf_pairs h ((shape_of_wft h hwft).1) x (List.mem_filter.1 hx).1 p p1 p2 kv hkv
      rw [hc] at hkv'
      have h3 := lookup_mem hsort hkv'
      rw [hlm] at h3
      have := hrec _ _ h3
      omega)
    simp only [page, p1, List.length_map]
    omega
  have h1 := nodup_length_le _ _ hks hin
  have h2 : ∀ L : List Nat, (∀ x ∈ L, (page x).length ≤ 88) → (L.flatMap page).length ≤ L.length * 88 := by
    intro L
    induction L with
    | nil => intro _; simp
    | cons x L ih =>
      intro hL
      have h3 := ih fun y hy => hL y (List.mem_cons_of_mem _ hy)
      have h4 := hL x List.mem_cons_self
      rw [List.flatMap_cons, List.length_append, List.length_cons]
      omega
  have h5 := h2 L hsz
  show 508 < L.length
  omega

end Verif.Cache
