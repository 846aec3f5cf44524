import Verif.Cache.Witness
import Verif.Db.LeavesProps

/-!
# What a sweep removes from a database with empty leaves (C59)

The theorems of `Props.lean` need a tree without empty leaves.  Here the leaves may be empty, which is what an earlier sweep may have left: the sweep then removes exactly the
entries that were not visited among those up to the first empty leaf, and keeps all entries behind it.
-/

namespace Verif.Cache

open Verif.Page Verif.Db

theorem upL_up {g : View} {H root : Nat} (st : List (Page × Nat)) : ∀ {h n : Nat} {L R : List (List (Bytes × Bytes))},
    UpL g H root h n st L R → Up g False H root h n st L.flatten R.flatten := by
  induction st with
  | nil => rintro h n L R ⟨rfl, rfl, rfl, rfl⟩; exact ⟨rfl, rfl, rfl, rfl⟩
  | cons a st ih =>
    obtain ⟨p, i⟩ := a
    rintro h n L R ⟨n', A, k, B, L', R', h1, h2, h3, h4, h5, h6, h8, rfl, rfl⟩
    have flat : ∀ es : List (Bytes × Nat), (∀ e ∈ es, Shape g False h e.2) →
        (es.flatMap fun e => leaves g h e.2).flatten = es.flatMap fun e => contents g h e.2 := by
      intro es
      induction es with
      | nil => intro _; rfl
      | cons e es ih' =>
        intro hes
        rw [List.flatMap_cons, List.flatten_append, leaves_contents (hes e List.mem_cons_self), ih' (fun x hx => hes x (List.mem_cons_of_mem _ hx)),
          List.flatMap_cons]
    refine ⟨n', A, k, B, L'.flatten, R'.flatten, h1, h2, h3, h4, h5, h6, ih h8, ?_, ?_⟩
    · rw [List.flatten_append, flat A (fun e he => h6 e (by rw [h4]; exact List.mem_append_left _ he))]
    · rw [List.flatten_append, flat B (fun e he => h6 e (by rw [h4]; exact List.mem_append_right _ (List.mem_cons_of_mem _ he)))]

theorem atL_at {g : View} {H root : Nat} {st : List (Page × Nat)} {L R : List (List (Bytes × Bytes))} {X Y : List (Bytes × Bytes)} {kv : Bytes × Bytes}
    (h : AtL g H root st L X kv Y R) : At g False H root st (L.flatten ++ X) kv (Y ++ R.flatten) := by
  obtain ⟨p, i, rest, n, rfl, h1, h2, h3, h4, h5, h6⟩ := h
  exact ⟨p, i, rest, n, L.flatten, R.flatten, X, Y, rfl, h1, h2, h3, upL_up rest h4, h5, h6, rfl, rfl⟩

/-- The loop of the sweep from the pair the cursor is at: it ends before the first empty leaf. -/
theorem sweepFrom_exact {env : Env} {t0 : Txn} {H id fr fuel last : Nat} {F : List Nat} {vis : List Bytes} (hd0 : t0.dirty = [])
    (hH : H < maxDepth) (hf : H < fuel) (h0 : t0.root ≠ 0) (hw : WFT (mapPage env) H none none t0.root) (V : List (Bytes × Bytes)) :
    ∀ {n : Nat} {st : List (Page × Nat)} {L R : List (List (Bytes × Bytes))} {X Y : List (Bytes × Bytes)} {kv : Bytes × Bytes} {t : Txn},
    Sweeping (mapPage env) env H id fr t0.root F vis last t (L.flatten ++ X) (kv :: (Y ++ R.flatten)) → AtL (mapPage env) H t0.root st L X kv Y R →
    V = Y ++ untilEmpty R → V.length + 1 < n →
    ∃ t' W, sweepFrom env vis fuel n t (⟨st, false⟩, .ok kv) = .ok (.success, t') ∧ Y ++ R.flatten = V ++ W ∧
      Sweeping (mapPage env) env H id fr t0.root F vis last t' (L.flatten ++ X ++ kv :: V) W := by
  have hg : getPage env t0 = mapPage env := by
    funext x
    unfold getPage Txn.getDirty
    rw [hd0]
    simp
  -- one round, given what comes next
  have round : ∀ {n : Nat} {st : List (Page × Nat)} {A B : List (Bytes × Bytes)} {kv : Bytes × Bytes} {t : Txn} {r : Cursor × Except Status (Bytes × Bytes)},
      Sweeping (mapPage env) env H id fr t0.root F vis last t A (kv :: B) → At (mapPage env) False H t0.root st A kv B →
      cursorGet env t0 fuel ⟨st, false⟩ .next = .ok r →
      ∃ t', sweepFrom env vis fuel (n + 1) t (⟨st, false⟩, .ok kv) = sweepFrom env vis fuel n t' r ∧
        Sweeping (mapPage env) env H id fr t0.root F vis last t' (A ++ [kv]) B := by
    intro n st A B kv t r hS hat hr
    have hnext : ∀ t, Sweeping (mapPage env) env H id fr t0.root F vis last t (A ++ [kv]) B → cursorGet env t fuel ⟨st, false⟩ .next = .ok r := by
      intro t hS
      rw [next_still (t0 := t0) hf (by rw [hg]; exact hat) (by rw [hg]; exact hS.toStill)]
      exact hr
    rw [sweepFrom]
    simp only [not_onCopy hw hS hat, Bool.false_eq_true, if_false]
    by_cases hv : kv.1 ∈ vis
    · have hS' := hS.keep hv
      rw [if_pos hv, hnext t hS', Res.ok_bind]
      exact ⟨t, rfl, hS'⟩
    · obtain ⟨t', e1, hS'⟩ := hS.drop hH h0 hv
      rw [if_neg hv, e1, Res.ok_bind]
      simp only [if_true]
      rw [hnext t' hS', Res.ok_bind]
      exact ⟨t', rfl, hS'⟩
  induction V with
  | nil =>
    intro n st L R X Y kv t hS hat hV hn
    obtain ⟨n, rfl⟩ : ∃ m, n = m + 2 := ⟨n - 2, by simp at hn; omega⟩
    obtain ⟨hY, hR⟩ := List.append_eq_nil_iff.1 hV.symm
    subst hY
    have hstop : R = [] ∨ ∃ R', R = [] :: R' := by
      cases R with
      | nil => exact .inl rfl
      | cons lf R =>
        cases lf with
        | nil => exact .inr ⟨R, rfl⟩
        | cons y Y => rw [untilEmpty_cons] at hR; cases hR
    obtain ⟨-, n2, -⟩ := next_leaf (env := env) (t := t0) hH hf (by rw [hg]; exact hat)
    obtain ⟨st', e⟩ := n2 rfl hstop
    obtain ⟨t', e1, hS'⟩ := round (n := n + 1) hS (atL_at hat) (cursorGet_fail (op := .next) e (by decide))
    refine ⟨t', R.flatten, ?_, rfl, hS'⟩
    rw [e1, sweepFrom]
  | cons b V ih =>
    intro n st L R X Y kv t hS hat hV hn
    obtain ⟨n, rfl⟩ : ∃ m, n = m + 1 := ⟨n - 1, by omega⟩
    obtain ⟨n1, -, n3⟩ := next_leaf (env := env) (t := t0) hH hf (by rw [hg]; exact hat)
    have hn' : V.length + 1 < n := by simp at hn; omega
    cases Y with
    | cons y Y =>
      rw [List.cons_append] at hV
      obtain ⟨rfl, hV'⟩ := List.cons.inj hV
      obtain ⟨st', e1, e2⟩ := n1 b Y rfl
      obtain ⟨t', s1, hS'⟩ := round (n := n) hS (atL_at hat) (cursorGet_leaf (op := .next) e1 e2)
      rw [hg] at e2
      rw [List.append_assoc] at hS'
      obtain ⟨t'', W, w1, w2, w3⟩ := ih (L := L) (X := X ++ [kv]) hS' e2 hV' hn'
      refine ⟨t'', W, s1.trans w1, by rw [List.cons_append, w2]; rfl, ?_⟩
      simpa using w3
    | nil =>
      cases R with
      | nil => cases hV
      | cons lf R =>
        cases lf with
        | nil => rw [untilEmpty_nil] at hV; cases hV
        | cons y Y =>
          rw [untilEmpty_cons, List.nil_append] at hV
          obtain ⟨rfl, hV'⟩ := List.cons.inj hV
          obtain ⟨st', e1, e2⟩ := n3 rfl b Y R rfl
          obtain ⟨t', s1, hS'⟩ := round (n := n) hS (atL_at hat) (cursorGet_leaf (op := .next) e1 e2)
          rw [hg] at e2
          have hS'' : Sweeping (mapPage env) env H id fr t0.root F vis last t' ((L ++ [X ++ [kv]]).flatten ++ []) (b :: (Y ++ R.flatten)) := by
            simpa using hS'
          obtain ⟨t'', W, w1, w2, w3⟩ := ih hS'' e2 hV' hn'
          refine ⟨t'', W, s1.trans w1, by simpa using w2, ?_⟩
          simpa using w3

/-- The entries up to the first empty leaf of the committed database. -/
def reached (env : Env) (h : Nat) : List (Bytes × Bytes) :=
  if metaRoot env.liveMeta = 0 then [] else untilEmpty (leaves (mapPage env) h (metaRoot env.liveMeta))

/-- The map without the entries of `l` that are not in `vis`. -/
def without (m : KvMap) (l : List (Bytes × Bytes)) (vis : List Bytes) : KvMap := fun k => if k ∈ l.map Prod.fst ∧ k ∉ vis then none else m k

theorem lookup_swept {V W : List (Bytes × Bytes)} (vis : List Bytes) (hs : Sorted ((V ++ W).map Prod.fst)) (k : Bytes) :
    (V.filter (fun kv => kv.1 ∈ vis) ++ W).lookup k = if k ∈ V.map Prod.fst ∧ k ∉ vis then none else (V ++ W).lookup k := by
  rw [List.lookup_append, lookup_filter_keys, List.lookup_append]
  by_cases hk : k ∈ V.map Prod.fst
  · have hW : k ∉ W.map Prod.fst := by
      intro hw
      rw [List.map_append, sorted_append] at hs
      exact blt_irrefl _ (hs.2.2 k hk k hw)
    have hWn : W.lookup k = none := lookup_none_iff.2 hW
    by_cases hv : k ∈ vis
    · rw [if_pos hv, if_neg (fun h => h.2 hv)]
    · rw [if_neg hv, if_pos ⟨hk, hv⟩, hWn]; rfl
  · have hVn : V.lookup k = none := lookup_none_iff.2 hk
    rw [hVn, if_neg (c := k ∈ V.map Prod.fst ∧ k ∉ vis) (fun h => hk h.1)]
    split <;> rfl

/-- What the loop does to the map. -/
theorem sweep_body_exact {env : Env} {h hf : Nat} {m : KvMap} {fl : List (Bytes × Bytes)} (vis : List Bytes) (hdb : DbOk env h hf m fl)
    (hl : env.locked = false) (hid : metaTxnid env.liveMeta + 1 < 2 ^ 64) (hd : h < 32) :
    ∃ t, Db.beginWrite env = some ({ env with locked := true }, t) ∧ t.newLast = metaLast env.liveMeta ∧ ∀ fuel, sweepSteps env h ≤ fuel →
      ∃ r t', cursorGet { env with locked := true } t fuel Cursor.opened (.seek .first) = .ok r ∧
        sweepFrom { env with locked := true } vis fuel fuel t r = .ok (.success, t') ∧
        Writing { env with locked := true } (metaTxnid env.liveMeta + 1) (metaFree env.liveMeta) (metaRoot env.liveMeta) (offLimits env hf) t' h
          (without m (reached env h) vis) ∧
        t'.newLast = metaLast env.liveMeta ∧ t'.freed.length ≤ (treePages (mapPage env) h (metaRoot env.liveMeta)).length := by
  obtain ⟨env', t, b1, rfl, b3, hW⟩ := begin_writing hdb hl hid
  have hdirty : t.dirty = [] ∧ t.freed = [] ∧ t.root = metaRoot env.liveMeta := by
    unfold Db.beginWrite at b1
    rw [if_neg (by simp [hl])] at b1
    cases b1; exact ⟨rfl, rfl, rfl⟩
  obtain ⟨hdirty, hfreed, hroot⟩ := hdirty
  have hg : getPage { env with locked := true } t = mapPage env := by
    funext x
    unfold getPage Txn.getDirty
    rw [hdirty]
    simp; rfl
  have same : reached env h = [] → without m (reached env h) vis = m := by
    intro hr
    funext k
    unfold without
    rw [hr]; simp
  obtain ⟨l, hh, hlm⟩ := hW.map
  have hsort := holds_sorted hh
  refine ⟨t, b1, b3, fun fuel hfuel => ?_⟩
  unfold sweepSteps at hfuel
  have hf2 : h < fuel := by omega
  have hf1 : l.length + 2 ≤ fuel := by
    rcases hh with ⟨-, rfl⟩ | ⟨h0, -, hc⟩
    · simp; omega
    · rw [hg, hroot] at hc
      rw [if_neg (by rw [← hroot]; exact h0), hc] at hfuel
      omega
  obtain ⟨n, rfl⟩ : ∃ n, fuel = n + 1 := ⟨fuel - 1, by omega⟩
  rcases hh with ⟨h0, rfl⟩ | ⟨h0, ht, hc⟩
  · have hmv : move { env with locked := true } t (n + 1) Cursor.opened (.seek .first) = .ok (.notfound, ⟨[], true⟩) := by
      unfold move; simp only [seek, if_pos h0]
    rw [same (by unfold reached; rw [if_pos (hroot.symm.trans h0)])]
    refine ⟨_, t, cursorGet_fail hmv (by decide), ?_, hW, b3, by rw [hfreed]; exact Nat.zero_le _⟩
    rw [sweepFrom]
  · have hr0 : metaRoot env.liveMeta ≠ 0 := by rw [← hroot]; exact h0
    have hsh := (shape_of_wft h ht.wft).1
    have hfl := leaves_contents hsh
    obtain ⟨lf, R, e, s1, s2⟩ := seek_first_leaf (H := h) hd hf2 h0 hsh
    have hreach : reached env h = untilEmpty (lf :: R) := by
      unfold reached
      rw [if_neg hr0, ← e, hg, hroot]
    cases lf with
    | nil =>
      obtain ⟨st, a⟩ := s1 rfl
      rw [same (by rw [hreach, untilEmpty_nil])]
      refine ⟨_, t, cursorGet_fail (op := .seek .first) a (by decide), ?_, hW, b3, by rw [hfreed]; exact Nat.zero_le _⟩
      rw [sweepFrom]
    | cons kv Y =>
      obtain ⟨st, a1, a2⟩ := s2 kv Y rfl
      have hcc : l = kv :: (Y ++ R.flatten) := by
        rw [← hc, ← hfl, e]; simp
      have hS : Sweeping (mapPage { env with locked := true }) { env with locked := true } h (metaTxnid env.liveMeta + 1) (metaFree env.liveMeta) t.root
          (offLimits env hf) vis (metaLast env.liveMeta) t (([] : List (List (Bytes × Bytes))).flatten ++ []) (kv :: (Y ++ R.flatten)) := by
        constructor
        · refine ⟨m, by rw [hroot]; exact hW, fun k => ?_⟩
          rw [← hlm, hcc]; rfl
        · rw [hcc] at hsort; exact hsort
        · intro kv' hk'
          refine contents_key_lt (g := getPage { env with locked := true } t) h (n := t.root) ?_
          rw [hc, hcc]; exact hk'
        · rfl
        · intro x hx p hp _; rw [hg]; exact hp
        · intro x hx p hp _ _
          unfold Txn.getDirty; rw [hdirty]; rfl
        · rw [hg]; rfl
        · intro x hx
          unfold Txn.getDirty at hx; rw [hdirty] at hx; cases hx
        · exact ⟨by rw [hfreed]; exact .nil, by rw [hfreed]; simp⟩
        · exact b3
      have hget := cursorGet_leaf (c := Cursor.opened) (op := .seek .first) a1 a2
      rw [hg] at a2
      have hwft := ht.wft
      rw [hg] at hwft
      have hlen : (Y ++ untilEmpty R).length + 1 < n + 1 := by
        obtain ⟨rest, hr⟩ := untilEmpty_prefix R
        rw [hcc, hr] at hf1
        simp only [List.length_append, List.length_cons] at hf1 ⊢; omega
      obtain ⟨t', W, e1, e3, e2⟩ := sweepFrom_exact (env := { env with locked := true }) (t0 := t) hdirty hd hf2 h0 hwft (Y ++ untilEmpty R) (n := n + 1)
        hS a2 rfl hlen
      refine ⟨_, t', hget, e1, ?_, e2.noNew, ?_⟩
      · obtain ⟨m', w1, w2⟩ := e2.writing
        have : m' = without m (reached env h) vis := by
          funext k
          rw [← w2]
          unfold without
          rw [hreach, untilEmpty_cons, ← hlm, hcc, e3]
          exact lookup_swept (V := kv :: (Y ++ untilEmpty R)) vis (by rw [hcc, e3] at hsort; exact hsort) k
        rw [← this, ← hroot]; exact w1
      · have hsub : ∀ x ∈ t'.freed, x ∈ treePages (mapPage env) h (metaRoot env.liveMeta) := by
          intro x hx
          unfold treePages
          rw [if_neg hr0, ← hroot]
          exact e2.dirty x (e2.freed.2 x hx)
        exact length_le_of_nodup _ _ e2.freed.1 hsub

/-- **C59**, exactly, for every well-formed committed database of at most 32 levels with room for the list of changed pages, whether or not leaves are empty: the sweep reports
success, removes the entries that were not visited among those up to the first empty leaf, and keeps every other entry, visited or not. -/
theorem sweep_exact_partial {c : Cache} {h hf : Nat} {m : KvMap} {fl : List (Bytes × Bytes)} (pid tid : Nat) (hdb : DbOk c.env h hf m fl)
    (hl : c.env.locked = false) (hid : metaTxnid c.env.liveMeta + 1 < 2 ^ 64) (hd : h < 32)
    (hroom : SweepRoom c.env h hf) (hmap : metaLast c.env.liveMeta + 1 < c.env.mapPages) {fuel : Nat} (hfuel : sweepSteps c.env h ≤ fuel) :
    ∃ c' h' hf' fl', sweep c fuel none pid tid = .ok (.success, c') ∧ DbOk c'.env h' hf' (without m (reached c.env h) c.visited) fl' ∧
      c'.visited = [] ∧ c'.txn = none ∧ c'.env.locked = false ∧ c'.env.readers = c.env.readers := by
  obtain ⟨t, b1, b2, hbody⟩ := sweep_body_exact c.visited hdb hl hid hd
  have h2 : 2 ≤ fuel := by unfold sweepSteps at hfuel; omega
  obtain ⟨fuel, rfl⟩ : ∃ f, fuel = f + 2 := ⟨fuel - 2, by omega⟩
  obtain ⟨r, t', e1, e2, e3, e4, e5⟩ := hbody (fuel + 2) (by omega)
  have hdb' : DbOk { c.env with locked := true } h hf m fl := hdb.congr rfl rfl rfl rfl
  have hroom' : FreeRoom { c.env with locked := true } (metaTxnid c.env.liveMeta + 1) (metaFree c.env.liveMeta) hf t' := by
    constructor
    · intro _ h0; have := hroom.fresh h0; omega
    · intro _ h0; exact fits_mono (by omega) hf (hroom.leaf h0)
  obtain ⟨env', h', hf', fl', k1, k2, k3, k4, -⟩ := commit_saves_partial (env := { c.env with locked := true }) fuel hdb' hid e3 hroom' (by
    rw [e4]; exact hmap)
  have hro : t'.rdonly = false := e3.clean.rdonly
  refine ⟨⟨env', none, []⟩, h', hf', fl', ?_, k2, rfl, rfl, k3, k4⟩
  unfold sweep beginWrite
  rw [b1]
  simp only [e1, Res.ok_bind, e2, if_true, commitWrite, hro, Bool.false_eq_true, if_false]
  unfold commit at k1
  rw [k1]
  rfl

/-- The entries behind an empty leaf survive a sweep before which nothing was marked, and a third sweep as well: here "a" to "d" are stored, the first sweep removes "a" and
"b", which were a leaf of their own, and the others stay for good. -/
example : ∃ sts c c1, filled [[([97], val2), ([98], val2), ([99], val2), ([100], val2)]] = .ok (sts, c) ∧ markSweep c [[99], [100]] none = .ok (.success, c1) ∧
    Res.holds (markSweep c1 [] none) (fun a => Res.holds (markSweep a.2 [] none) fun b => Res.found (look b.2.env [99]) && Res.found (look b.2.env [100])) = true ∧
    reached c1.env 1 = [] := by
  have h : Res.holds (filled [[([97], val2), ([98], val2), ([99], val2), ([100], val2)]]) (fun r =>
      Res.holds (markSweep r.2 [[99], [100]] none) fun a => a.1 == .success && decide (reached a.2.env 1 = []) &&
        Res.holds (markSweep a.2 [] none) (fun a => Res.holds (markSweep a.2 [] none) fun b => Res.found (look b.2.env [99]) && Res.found (look b.2.env [100]))) =
      true := by
    decide +kernel
  obtain ⟨⟨sts, c⟩, h1, h2⟩ := Res.holds_iff h
  obtain ⟨⟨s, c1⟩, h3, h4⟩ := Res.holds_iff h2
  simp only [Bool.and_eq_true, beq_iff_eq, decide_eq_true_eq] at h4
  obtain ⟨⟨rfl, h5⟩, h6⟩ := h4
  exact ⟨sts, c, c1, h1, h3, h6, h5⟩

end Verif.Cache
