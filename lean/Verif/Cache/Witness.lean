import Verif.Cache.Hist
import Verif.Db.TxnExamples

/-!
# Concrete caches: where C59 fails, and where the conditions of the properties hold
-/

namespace Verif.Cache

open Verif.Page Verif.Db

/-- Some record. -/
def rec1 : Bytes := List.replicate 40 1
def rec2 : Bytes := List.replicate 40 2

/-- A new cache, and transactions that each store records. -/
def filled (ls : List (List (Bytes × Bytes))) : Res (List Status × Cache) := do
  let d ← demo ls
  .ok (d.1, ⟨d.2, none, []⟩)

/-- Mark the paths, then sweep. -/
def markSweep (c : Cache) (paths : List Bytes) (fail : Option Nat) : Res (Status × Cache) := sweep (paths.foldl markVisited c) 20 fail 1 1

/-- C59 is false in general: four entries are stored and a sweep keeps the visited two, which leaves
an empty leaf.  The next sweep, before which nothing is marked, reports success and keeps both.
(The values are larger than records so that a few of them need several leaves.) -/
theorem sweep_keeps_unvisited :
    ∃ sts c c1 c2, filled [[([97], val2), ([98], val2), ([99], val2), ([100], val2)]] = .ok (sts, c) ∧
      (∀ s ∈ sts, s = .success) ∧ markSweep c [[99], [100]] none = .ok (.success, c1) ∧ c1.visited = [] ∧
      markSweep c1 [] none = .ok (.success, c2) ∧ (∃ v, look c2.env [99] = .ok (.ok v)) ∧ ∃ v, look c2.env [100] = .ok (.ok v) := by
  have h : Res.holds (filled [[([97], val2), ([98], val2), ([99], val2), ([100], val2)]])
      (fun r => r.1.all (· == .success) && Res.holds (markSweep r.2 [[99], [100]] none) fun a => a.1 == .success &&
        Res.holds (markSweep a.2 [] none) fun b => b.1 == .success && Res.found (look b.2.env [99]) && Res.found (look b.2.env [100])) = true := by
    decide +kernel
  obtain ⟨⟨sts, c⟩, h1, h2⟩ := Res.holds_iff h
  simp only [Bool.and_eq_true, List.all_eq_true, beq_iff_eq] at h2
  obtain ⟨h2, h3⟩ := h2
  obtain ⟨⟨s1, c1⟩, h4, h5⟩ := Res.holds_iff h3
  simp only [Bool.and_eq_true, beq_iff_eq] at h5
  obtain ⟨rfl, h5⟩ := h5
  obtain ⟨⟨s2, c2⟩, h6, h7⟩ := Res.holds_iff h5
  simp only [Bool.and_eq_true, beq_iff_eq] at h7
  obtain ⟨⟨rfl, h7⟩, h8⟩ := h7
  exact ⟨sts, c, c1, c2, h1, h2, h4, (sweep_visited h4).1 rfl, h6, Res.found_iff h7, Res.found_iff h8⟩

/-- C59 is false in a second way: the write of the meta page fails, the sweep reports it, and the
unvisited entry is gone all the same. -/
theorem failed_sweep_deletes :
    ∃ sts c c1, filled [[([97], rec1), ([98], rec2)]] = .ok (sts, c) ∧ (∀ s ∈ sts, s = .success) ∧ (∃ v, look c.env [97] = .ok (.ok v)) ∧
      markSweep c [[98]] (some 5) = .ok (.general, c1) ∧ look c1.env [97] = .ok (.error .notfound) := by
  have h : Res.holds (filled [[([97], rec1), ([98], rec2)]])
      (fun r => r.1.all (· == .success) && Res.found (look r.2.env [97]) && Res.holds (markSweep r.2 [[98]] (some 5)) fun a => a.1 == .general &&
        Res.absent (look a.2.env [97])) = true := by
    decide +kernel
  obtain ⟨⟨sts, c⟩, h1, h2⟩ := Res.holds_iff h
  simp only [Bool.and_eq_true, List.all_eq_true, beq_iff_eq] at h2
  obtain ⟨⟨h2, h3⟩, h4⟩ := h2
  obtain ⟨⟨s1, c1⟩, h5, h6⟩ := Res.holds_iff h4
  simp only [Bool.and_eq_true, beq_iff_eq] at h6
  obtain ⟨rfl, h6⟩ := h6
  exact ⟨sts, c, c1, h1, h2, Res.found_iff h3, h5, Res.absent_iff h6⟩

/-- A sweep while a read transaction is open forgets it: it cannot be ended any more and its place in
the reader table stays taken. -/
theorem sweep_forgets_reader :
    ∃ c c1 c2, envCreate 20 = .ok c.env ∧ c.txn = none ∧ beginRead c 1 1 = (.success, c1) ∧ sweep c1 20 none 1 1 = .ok (.success, c2) ∧
      abort c2 1 1 = (.inval, c2) ∧ ∃ s ∈ c2.env.readers, s.pid = 1 ∧ s.tid = 1 ∧ 0 < s.txnid := by
  have h : (match beginRead ⟨newDb, none, []⟩ 1 1 with
    | (.success, c1) => Res.holds (sweep c1 20 none 1 1) fun r => r.1 == .success && (r.2.env.readers.any fun s => s.pid == 1 && s.tid == 1 && decide (0 < s.txnid))
    | _ => false) = true := by decide +kernel
  split at h
  · rename_i c1 hb
    obtain ⟨⟨s, c2⟩, h1, h2⟩ := Res.holds_iff h
    simp only [Bool.and_eq_true, beq_iff_eq, List.any_eq_true, decide_eq_true_eq] at h2
    obtain ⟨rfl, s, hs, ⟨h3, h4⟩, h5⟩ := h2
    exact ⟨_, c1, c2, rfl, rfl, hb, h1, (no_transaction (sweep_visited h1).2.2 0 [] [] none 1 1).2.2.2, s, hs, h3, h4, h5⟩
  · cases h

/-! ## Conditions met -/

/-- One `put` of several, as `Db.body_one`. -/
theorem body_cons {env : Env} {fuel id fr : Nat} {F : List Nat} {t t1 t2 : Txn} {m : KvMap} {k v : Bytes} {ops : List KvOp} (hq : fr = 0)
    (hsz : 4 + k.length + v.length < 65536) (hl : t.newLast + 2 < 2 ^ 64) (hm : m k = none)
    (hleaf : t.root = 0 ∨ ∃ p, getPage env t t.root = .ok p ∧ isLeaf p = true ∧ 4 + k.length + v.length + 2 ≤ room p)
    (hrun : put env (fuel + 2) t k v = .ok (.success, t1)) (rest : Body env fuel id fr F t1 (m.put k v) ops t2) :
    Body env fuel id fr F t m (.put k v :: ops) t2 := by
  have := body_one (env := env) (fuel := fuel) (id := id) (fr := fr) (F := F) (m := m) hq hsz hl hm hleaf hrun
  cases this with
  | put hs hq' hrun' _ => exact .put hs hq' hrun rest

/-- The conditions under which a pair goes into the leaf that is the whole tree. -/
def goodStore (env : Env) (t : Txn) (k v : Bytes) : Bool :=
  decide (4 + k.length + v.length < 65536) && decide (t.newLast + 2 < 2 ^ 64) &&
    (t.root == 0 || Res.holds (getPage env t t.root) fun p => isLeaf p && decide (4 + k.length + v.length + 2 ≤ room p))

/-- A history that meets the conditions of `history_of_cache_partial` and, in it, a sweep that meets
those of `sweep_keeps_visited_partial`: `a` and `b` are stored, `b` is marked, and the sweep removes
`a`. -/
theorem demo_history : ∃ c', envCreate 20 = .ok newDb ∧
    History 5 ⟨newDb, none, []⟩ (fun _ => none) c' (kept (KvMap.put (KvMap.put (fun _ => none) [97] rec1) [98] rec2) [[98]]) := by
  have h : (match Db.beginWrite newDb with
    | none => false
    | some p => goodStore p.1 p.2 [97] rec1 && Res.holds (put p.1 7 p.2 [97] rec1) fun a => a.1 == .success &&
      goodStore p.1 a.2 [98] rec2 && Res.holds (put p.1 7 a.2 [98] rec2) fun b => b.1 == .success &&
      decide (b.2.newLast + 1 < 20) && b.2.freed.isEmpty && Res.holds (commit p.1 7 b.2) fun c => c.1 == .success &&
      !c.2.locked && decide (metaTxnid c.2.liveMeta + 1 < 2 ^ 64) && metaFree c.2.liveMeta == 0 && metaRoot c.2.liveMeta != 0 &&
      decide (metaLast c.2.liveMeta + 1 < c.2.mapPages) &&
      (Res.holds (getPage c.2 (readTxn c.2) (readTxn c.2).root) fun q => isLeaf q && !(items q).isEmpty && decide ((kvs q).length ≤ 18)) &&
      Res.holds (sweep ⟨c.2, none, [[98]]⟩ 20 none 1 1) fun s => s.1 == .success) = true := by decide +kernel
  cases hb : Db.beginWrite newDb with
  | none => rw [hb] at h; cases h
  | some p =>
    obtain ⟨env1, t⟩ := p
    rw [hb] at h
    simp only [goodStore, Bool.and_eq_true, decide_eq_true_eq, beq_iff_eq, Bool.or_eq_true] at h
    obtain ⟨⟨⟨a1, a2⟩, a3⟩, h⟩ := h
    obtain ⟨⟨st, t1⟩, p1, h⟩ := Res.holds_iff h
    simp only [Bool.and_eq_true, decide_eq_true_eq, beq_iff_eq, Bool.or_eq_true] at h
    obtain ⟨⟨rfl, ⟨b1, b2⟩, b3⟩, h⟩ := h
    obtain ⟨⟨st, t2⟩, p2, h⟩ := Res.holds_iff h
    simp only [Bool.and_eq_true, decide_eq_true_eq, beq_iff_eq, List.isEmpty_iff] at h
    obtain ⟨⟨⟨rfl, c1⟩, c2⟩, h⟩ := h
    obtain ⟨⟨st, env2⟩, p3, h⟩ := Res.holds_iff h
    simp only [Bool.and_eq_true, decide_eq_true_eq, beq_iff_eq, Bool.not_eq_true', bne_iff_ne] at h
    obtain ⟨⟨⟨⟨⟨⟨⟨rfl, d1⟩, d2⟩, d3⟩, d4⟩, d5⟩, d6⟩, h⟩ := h
    obtain ⟨⟨st, c4⟩, p4, h⟩ := Res.holds_iff h
    simp only [beq_iff_eq] at h
    subst h
    obtain ⟨q, q1, q2⟩ := Res.holds_iff d6
    simp only [Bool.and_eq_true, decide_eq_true_eq, Bool.not_eq_true', List.isEmpty_eq_false_iff] at q2
    obtain ⟨⟨q2, q3⟩, q4⟩ := q2
    have hfr : metaFree newDb.liveMeta = 0 := metaPage_free _ _ _ _
    have hleaf : ∀ {t : Txn} {s : Nat}, t.root = 0 ∨ Res.holds (getPage env1 t t.root) (fun p => isLeaf p && decide (s ≤ room p)) = true →
        t.root = 0 ∨ ∃ p, getPage env1 t t.root = .ok p ∧ isLeaf p = true ∧ s ≤ room p := by
      intro t s h
      rcases h with h | h
      · exact .inl h
      · obtain ⟨p, e1, e2⟩ := Res.holds_iff h
        simp only [Bool.and_eq_true, decide_eq_true_eq] at e2
        exact .inr ⟨p, e1, e2.1, e2.2⟩
    have hbody : ∀ hf, Body env1 5 (metaTxnid newDb.liveMeta + 1) (metaFree newDb.liveMeta) (offLimits newDb hf) t (fun _ => none)
        [.put [97] rec1, .put [98] rec2] t2 := fun hf =>
      body_cons hfr a1 a2 rfl (hleaf a3) p1 (body_one hfr b1 b2 (by decide) (hleaf b3) p2)
    have hup : upserts ⟨env1, some t, []⟩ 7 [([97], rec1), ([98], rec2)] = .ok ([.success, .success], ⟨env1, some t2, []⟩) :=
      upserts_body [([97], rec1), ([98], rec2)] (c := ⟨env1, some t, []⟩) rfl rfl (hbody 0)
    have hro : t2.rdonly = false := by
      obtain ⟨env0, e1, e2, e3⟩ := create_empty (mapPages := 20) (by decide) (by decide)
      have e0 : envCreate 20 = .ok newDb := rfl
      rw [e0] at e1; cases e1
      obtain ⟨env1', t', w1, -, -, w3⟩ := begin_writing e3 e2 (by rw [show metaTxnid newDb.liveMeta = 1 from metaPage_txnid _ _ _ _]; decide)
      rw [hb] at w1; cases w1
      obtain ⟨h', hW⟩ := body_writing (hbody 0) w3
      exact hW.clean.rdonly
    refine ⟨c4, rfl, .load (c1 := ⟨env1, some t, []⟩) (l := [([97], rec1), ([98], rec2)]) (pid := 1) (tid := 1) (c3 := ⟨env2, none, []⟩) (st := .success)
      (by rw [show metaTxnid newDb.liveMeta = 1 from metaPage_txnid _ _ _ _]; decide) (by unfold beginWrite; rw [hb]) rfl (by decide)
      (fun h hf fl _ => ⟨hbody hf, fun hn => absurd c2 hn, fun hn => absurd c2 hn⟩) c1 hup ?_ (.mark [98] ?_)⟩
    · unfold commitWrite
      simp only [hro, Bool.false_eq_true, if_false]
      unfold commit at p3
      rw [p3]; rfl
    · have hq : mapPage env2 (metaRoot env2.liveMeta) = .ok q := by
        have : getPage env2 (readTxn env2) = mapPage env2 := by
          funext x; unfold getPage Txn.getDirty readTxn; simp
        rw [← this]; exact q1
      refine .sweep (fuel' := 20) (pid := 1) (tid := 1) d1 d2 (fun h hf fl hdb hz => ?_) d5 p4 (.nil _ _)
      have h0 : h = 0 := height_zero ⟨hdb.main, fun hn => absurd hn d4⟩ q1 q2
      subst h0
      refine ⟨by decide, fun _ p hp => ?_, ⟨fun _ => ?_, fun hn => absurd d3 hn⟩, ?_⟩
      · rw [show mapPage (markVisited ⟨env2, none, []⟩ [98]).env = mapPage env2 from rfl] at hp
        rw [show (markVisited ⟨env2, none, []⟩ [98]).env = env2 from rfl, hq] at hp
        cases hp; exact q3
      · show 8 * (treePages (mapPage env2) 0 (metaRoot env2.liveMeta)).length + 14 ≤ 4078
        unfold treePages
        rw [if_neg d4]
        simp [pagesOf]
      · show sweepSteps env2 0 ≤ 20
        unfold sweepSteps
        rw [if_neg d4]
        simp only [contents, hq]
        omega

/-- So a read transaction then finds `b` and not `a`. -/
example : ∃ c' N, ∀ pid tid c'', beginRead c' pid tid = (.success, c'') → ∀ fuel, N ≤ fuel →
    lookup c'' fuel [97] = .ok (.error .notfound) ∧ lookup c'' fuel [98] = .ok (.ok rec2) := by
  obtain ⟨c', h1, h2⟩ := demo_history
  obtain ⟨N, hN⟩ := history_of_cache_partial (by decide) (by decide) h1 h2
  exact ⟨c', N, fun pid tid c'' hb fuel hf => ⟨hN pid tid c'' hb [97] fuel (by decide) hf, hN pid tid c'' hb [98] fuel (by decide) hf⟩⟩

end Verif.Cache
