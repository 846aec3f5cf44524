import Verif.Db.PileProps
import Verif.Cache.Hist

/-!
# A cache file that no later run can read

Files are entered into a new cache.  Everything succeeds; the lookup of one of them, in the same transaction or in any later run, reads outside its
page (C122).  Once with six files with paths of 1340 bytes, once with 71 files of one directory with paths of 255 bytes.
-/

namespace Verif.Cache

open Verif.Page Verif.Db

theorem upserts_steps {env : Env} {fuel : Nat} {vis : List Bytes} : ∀ (l : List (Bytes × Bytes)) {t t' : Txn} {sts : List Status},
    steps env fuel t (l.map fun e => .put e.1 e.2) = .ok (sts, t') → upserts ⟨env, some t, vis⟩ fuel l = .ok (sts, ⟨env, some t', vis⟩) := by
  intro l
  induction l with
  | nil => intro t t' sts h; cases h; rfl
  | cons e l ih =>
    intro t t' sts h
    rw [List.map_cons, steps] at h
    obtain ⟨a, h1, h⟩ := Res.bind_eq_ok.1 h
    obtain ⟨b, h2, h⟩ := Res.bind_eq_ok.1 h
    cases h
    have h1' : put env fuel t e.1 e.2 = .ok a := h1
    rw [upserts, upsert]
    simp only []
    rw [h1', Res.ok_bind, Res.ok_bind]
    simp only []
    rw [ih h2, Res.ok_bind]

/-- The lists say of the records: all are stored, in less than 64 pages, and the way of the path leads to an empty branch page. -/
def falling (l : List (Bytes × Bytes)) (path : Bytes) : Bool :=
  match Pile.steps ⟨0, 1, []⟩ (l.map fun e => .put e.1 e.2) with
  | none => false
  | some y => decide (y.1 = List.replicate l.length .success) && y.2.root != 0 && decide (y.2.last < 64) && y.2.falls path 8 y.2.root

theorem falling_undefined {l : List (Bytes × Bytes)} {path : Bytes} (hf : falling l path = true) (hk : path.length < 65536) {mapPages fuel : Nat} (hm : 64 ≤ mapPages)
    (vis : List Bytes) :
    ∃ env c1 c2 c3, envCreate mapPages = .ok env ∧ beginWrite ⟨env, none, vis⟩ = some (.success, c1) ∧
      upserts c1 (fuel + 1) l = .ok (List.replicate l.length .success, c2) ∧ (∀ fuel', lookup c2 (fuel' + 8) path = .ub) ∧
      commitWrite c2 (fuel + 1) none 1 1 = .ok (.success, c3) ∧
      ∀ pid tid, ∃ c4, beginRead c3 pid tid = (.success, c4) ∧ ∀ fuel', lookup c4 (fuel' + 8) path = .ub := by
  unfold falling at hf
  cases hy : Pile.steps ⟨0, 1, []⟩ (l.map fun e => .put e.1 e.2) with
  | none => rw [hy] at hf; cases hf
  | some y =>
    rw [hy] at hf
    simp only [Bool.and_eq_true, decide_eq_true_eq, bne_iff_ne] at hf
    obtain ⟨⟨⟨d1, h0⟩, d4⟩, d5⟩ := hf
    let env : Env := ⟨fun n => if n = 0 then metaPage 0 0 1 0 else if n = 1 then metaPage 1 0 1 0 else zeroPage, 2, mapPages, 1, false, List.replicate maxReaders noSlot⟩
    have hcreate : envCreate mapPages = .ok env := by unfold envCreate; rw [if_neg (by omega)]
    have hlive : env.liveMeta = metaPage 1 0 1 0 := rfl
    let env1 : Env := { env with locked := true }
    have hbegin : Db.beginWrite env = some (env1, txn0) := by
      unfold Db.beginWrite
      rw [hlive, metaPage_txnid, metaPage_root, metaPage_free, metaPage_last]
      rfl
    obtain ⟨t', e, R, -⟩ := pile_refines (env := env1) (fuel := fuel) piled_txn0 hy
    have hroot : y.2.root ≤ y.2.last := by
      cases ha : y.2.get y.2.root with
      | none =>
        rw [Pile.falls, ha] at d5; cases d5
      | some a => exact (R.low _ _ ha).2
    have hd : t'.dirty ≠ [] := by
      cases ha : y.2.get y.2.root with
      | none =>
        rw [Pile.falls, ha] at d5; cases d5
      | some a =>
        obtain ⟨p, hp, -⟩ := R.page _ _ ha
        intro e
        unfold Txn.getDirty at hp
        rw [e] at hp; cases hp
    obtain ⟨env', hc, hrd, hs⟩ := R.commit (env := env1) hd (by show metaLast env.liveMeta < 2; rw [hlive, metaPage_last]; decide) (Nat.le_refl 2)
      (by rw [R.last]; show y.2.last < mapPages; omega) (by omega) (fuel + 1)
    have hfall : ∀ fuel, y.2.falls path (fuel + 8) y.2.root = true := fun fuel => by rw [Nat.add_comm]; exact Pile.falls_add d5 fuel
    refine ⟨env, ⟨env1, some txn0, vis⟩, ⟨env1, some t', vis⟩, ⟨env', none, vis⟩, hcreate, ?_, ?_, ?_, ?_, ?_⟩
    · unfold beginWrite
      simp only []
      rw [hbegin]
    · rw [← d1]; exact upserts_steps _ e
    · intro fuel
      unfold lookup
      simp only []
      rw [(R.seen _).get_falls hk h0 (hfall fuel)]; rfl
    · unfold commitWrite
      simp only []
      rw [if_neg (by rw [R.rdonly]; simp)]
      have hc' : commitWith (alloc env1 (fuel + 1)) none env1 t' = .ok (.success, env') := hc
      rw [hc', Res.ok_bind]
    · intro pid tid
      have hr : register ⟨pid, tid, (readTxn env').txnid⟩ env'.readers = some (⟨pid, tid, (readTxn env').txnid⟩ :: List.replicate (maxReaders - 1) noSlot) := by
        rw [hrd]; rfl
      refine ⟨⟨{ env' with readers := ⟨pid, tid, (readTxn env').txnid⟩ :: List.replicate (maxReaders - 1) noSlot }, some (readTxn env'), vis⟩, ?_, fun fuel => ?_⟩
      · unfold beginRead Db.beginRead
        simp only []
        rw [hr]
      · have hs' : Seen { env' with readers := ⟨pid, tid, (readTxn env').txnid⟩ :: List.replicate (maxReaders - 1) noSlot } y.2 (readTxn env') := ⟨hs.root, hs.page⟩
        unfold lookup
        simp only []
        rw [hs'.get_falls hk h0 (hfall fuel)]; rfl

/-- A path of five directories with names of 249 bytes and a file with a name of 89 bytes. -/
def deepPath (c : UInt8) : Bytes := (List.replicate 5 (47 :: List.replicate 249 c)).flatten ++ 47 :: List.replicate 89 c

/-- A path of 255 bytes: a file of the top directory, with a number of three digits. -/
def numbered (n : Nat) : Bytes := 47 :: UInt8.ofNat (48 + n / 100) :: UInt8.ofNat (48 + n / 10 % 10) :: UInt8.ofNat (48 + n % 10) :: List.replicate 251 120

/-- A record of the cache. -/
def someRecord : Bytes := List.replicate 40 7

/-- Six files deep down. -/
def sixFiles : List (Bytes × Bytes) := [116, 102, 105, 114, 121, 97].map fun c => (deepPath c, someRecord)

/-- 71 files of one directory. -/
def manyFiles : List (Bytes × Bytes) :=
  [470, 342, 384, 936, 722, 708, 709, 513, 958, 539, 398, 507, 693, 957, 476, 138, 141, 923, 670, 800, 295, 443, 418, 288, 974, 595, 754, 801, 331, 678, 890, 816, 320, 203, 402, 36, 245, 662, 737, 809, 334, 27, 130, 385, 55, 253, 143, 994, 223, 731, 417, 212, 155, 755, 92, 108, 380, 126, 88, 348, 23, 199, 164, 231, 24, 75, 62, 110, 226, 104, 49].map
    fun n => (numbered n, someRecord)

/-- **C122** is false of the cache: in a new cache (mapped with 64 pages or any number above), six files with paths of 1340 bytes are entered, and everything succeeds.
Then the lookup of the last of them reads outside its page; and when the transaction is committed, which succeeds, so does that lookup in every read
transaction that follows. -/
theorem cache_lookup_undefined_witness {mapPages fuel : Nat} (hm : 64 ≤ mapPages) :
    ∃ env c1 c2 c3, envCreate mapPages = .ok env ∧ beginWrite ⟨env, none, []⟩ = some (.success, c1) ∧
      upserts c1 (fuel + 1) sixFiles = .ok (List.replicate 6 .success, c2) ∧ (∀ fuel', lookup c2 (fuel' + 8) (deepPath 97) = .ub) ∧
      commitWrite c2 (fuel + 1) none 1 1 = .ok (.success, c3) ∧
      ∀ pid tid, ∃ c4, beginRead c3 pid tid = (.success, c4) ∧ ∀ fuel', lookup c4 (fuel' + 8) (deepPath 97) = .ub :=
  falling_undefined (l := sixFiles) (by decide +kernel) (by decide +kernel) hm []

/-- The same with 71 files of one directory whose paths have 255 bytes; the path looked up is that of the file entered last but one. -/
theorem directory_lookup_undefined_witness {mapPages fuel : Nat} (hm : 64 ≤ mapPages) :
    ∃ env c1 c2 c3, envCreate mapPages = .ok env ∧ beginWrite ⟨env, none, []⟩ = some (.success, c1) ∧
      upserts c1 (fuel + 1) manyFiles = .ok (List.replicate 71 .success, c2) ∧ (∀ fuel', lookup c2 (fuel' + 8) (numbered 104) = .ub) ∧
      commitWrite c2 (fuel + 1) none 1 1 = .ok (.success, c3) ∧
      ∀ pid tid, ∃ c4, beginRead c3 pid tid = (.success, c4) ∧ ∀ fuel', lookup c4 (fuel' + 8) (numbered 104) = .ub :=
  falling_undefined (l := manyFiles) (by decide +kernel) (by decide +kernel) hm []

end Verif.Cache
